import Verif.Props.Threads
import Verif.Props.ManyWay
import Verif.Proof.ConcurrentMany
/-!
# C56: union_many and intersection at the same time

Both always use their static objects, so two calls of the same function in progress at the same time can
disturb each other, whatever their arguments.
-/
namespace Sliced

variable {σ τ α : Type} {dbg dbg₁ dbg₂ dbg₃ dbg₄ : Bool} {pad : Nat} {m : Mem} {tab : Nat → List Nat}

/-- C56: a call of `union_many` that runs alone is `union_many`. -/
theorem C56_union_many_alone (dbg : Bool) (m : Mem) (ss : List SSeq) (buf : List Nat) (out : Nat)
    (s : MScratch) :
    (union_many_prog dbg m ss buf out).run s
      = (fun p => ((p.1, p.2.2), p.2.1)) <$> union_many dbg m ss s buf out := union_many_alone ..

/-- C56: the same for `intersection`. -/
theorem C56_intersection_alone (dbg : Bool) (sort : (SSeq → Nat) → List SSeq → List SSeq) (m : Mem)
    (ss : List SSeq) (buf : List Nat) (out : Nat) (s : IScratch) :
    (intersection_prog dbg sort m ss buf out).run s
      = (fun p => ((p.1, p.2.2.2), p.2.2.1)) <$> intersection dbg sort m ss s buf out :=
  intersection_alone ..

/-! ## Two calls of union_many -/

/-- The first slice of a list. -/
def FirstSlice (Z : List Nat) (h : Nat) : Prop := (∃ v ∈ Z, v / 65536 = h) ∧ ∀ v ∈ Z, h ≤ v / 65536

theorem union_many_loop_step {n f out : Nat} {its : List It} {buf : List Nat} (h : n < 65536) :
    union_many_loop_prog dbg m (f + 1) its n buf out
      = merge_loop_prog dbg m n its true >>= fun _ =>
        Prog.read (fun s => decode_bitmap (vecWords s.bitmap) 1024 (u32 (n * 65536)) buf out) >>= fun p =>
          Prog.lift (step_loop m n its 65536) >>= fun q =>
            union_many_loop_prog dbg m f q.1 q.2 p.2 (out + p.1) := by
  rw [union_many_loop_prog, if_pos h]

/-- A call of `union_many` gets to the point where it is about to decode the bitmap of its first slice
(`R`); with whatever bitmap it finds there, it goes on and finishes. -/
theorem union_many_reaches {ps : List (List Nat × SSeq)} {Z buf : List Nat} {h : Nat}
    (hps : StoredAll dbg₁ pad m ps) (hZ : Enumerates Z (fun v => ∃ p ∈ ps, v ∈ p.1)) (hh : FirstSlice Z h) :
    ∃ R : Prog MScratch (Nat × List Nat),
      (∀ s : MScratch, s.Ok → ∃ s', Reaches (union_many_prog dbg m (ps.map Prod.snd) buf 0) s R s' ∧
        s'.Ok ∧ BufIs s'.bitmap (fun x => decide (h * 65536 + x ∈ Z))) ∧
      ∀ (s : MScratch) (Q : Nat → Bool) W, s.Ok → BufIs s.bitmap Q →
        W = ((List.range 65536).filter Q).map (h * 65536 + ·) ++ Z.filter (fun v => decide (h < v / 65536)) →
        W.length ≤ buf.length →
        ∃ o s', R.run s = .ok ((W.length, o), s') ∧ Wrote buf 0 W 0 o := by
  have hc := hps.seqsAt
  have hon := hc.begin
  have hne : ps ≠ [] := by
    rintro rfl
    obtain ⟨v, hv, -⟩ := hh.1
    obtain ⟨p, hp, -⟩ := (hZ.2 v).mp hv
    cases hp
  have hZ' : Enumerates Z (fun v => ∃ cs ∈ ps.map (fun p => chunksOf p.1), v ∈ seqElems cs) := by
    refine ⟨hZ.1, fun v => (hZ.2 v).trans ?_⟩
    constructor
    · rintro ⟨p, hp, hv⟩
      exact ⟨_, List.mem_map.mpr ⟨p, hp, rfl⟩, by rw [seqElems_chunksOf (hps p hp).1]; exact hv⟩
    · rintro ⟨cs, hcs, hv⟩
      obtain ⟨p, hp, rfl⟩ := List.mem_map.mp hcs
      rw [seqElems_chunksOf (hps p hp).1] at hv
      exact ⟨p, hp, hv⟩
  obtain ⟨n, e1, hm⟩ := min_id_spec (by simpa using hne) hon
  obtain ⟨-, hlo, hex⟩ := hm
  -- the least id is the first slice
  have hnl : n < 65536 := by
    rcases hex with h1 | ⟨cs, hcs, h1⟩
    · obtain ⟨v, hv, -⟩ := hh.1
      obtain ⟨cs, hcs, hv⟩ := (hZ'.2 v).mp hv
      have g := hlo cs hcs
      cases cs with
      | nil => simp [seqElems] at hv
      | cons c cs =>
        have := (hon.wf _ hcs).head.1
        simp only [headId] at g
        omega
    · cases cs with
      | nil =>
        obtain ⟨p, hp, e⟩ := List.mem_map.mp hcs
        have := seqElems_chunksOf (hps p hp).1
        rw [e] at this
        exact absurd this.symm (hps p hp).1.1
      | cons c cs =>
        have := (hon.wf _ hcs).head.1
        simp only [headId] at h1
        omega
  have hex : ∃ cs ∈ ps.map (fun p => chunksOf p.1), headId cs = n := by
    rcases hex with h1 | h1
    · omega
    · exact h1
  obtain ⟨hsp, hZ2⟩ := union_slice_split hon hnl hlo hZ'
  have hmemU : ∀ x, x < 65536 →
      ((ps.map (fun p => chunksOf p.1)).any (headHas n x) = true ↔ n * 65536 + x ∈ Z) := by
    intro x hx
    constructor
    · intro hP
      rw [hsp]
      exact List.mem_append_left _ (List.mem_map.mpr ⟨x, List.mem_filter.mpr ⟨List.mem_range.mpr hx, hP⟩, rfl⟩)
    · intro hm
      rw [hsp] at hm
      rcases List.mem_append.mp hm with hm | hm
      · obtain ⟨y, hy, e⟩ := List.mem_map.mp hm
        have : y = x := by omega
        exact this ▸ (List.mem_filter.mp hy).2
      · have := of_decide_eq_true (List.mem_filter.mp hm).2
        omega
  have hn : n = h := by
    obtain ⟨cs, hcs, hid⟩ := hex
    have hle : h ≤ n := by
      cases cs with
      | nil => simp only [headId] at hid; omega
      | cons c cs =>
        have hcw := (hon.wf _ hcs).head
        obtain ⟨x, hx⟩ := List.exists_mem_of_length_pos hcw.card_pos
        have hxl := hcw.2.bound x hx
        have := (hmemU x hxl).mp (List.any_eq_true.mpr ⟨_, hcs, by
          simp only [headHas, Bool.and_eq_true, decide_eq_true_eq]
          exact ⟨hid, hx⟩⟩)
        have := hh.2 _ this
        omega
    obtain ⟨v, hv, hv'⟩ := hh.1
    rw [hsp] at hv
    rcases List.mem_append.mp hv with hm | hm
    · obtain ⟨y, hy, e⟩ := List.mem_map.mp hm
      have := List.mem_range.mp (List.mem_filter.mp hy).1
      omega
    · have := of_decide_eq_true (List.mem_filter.mp hm).2
      omega
  subst hn
  obtain ⟨its', next, e3, hon', hmin'⟩ := step_loop_spec hnl 65536 hon
  have hnext := hmin'.later hon hnl hlo
  refine ⟨?R, ?_, ?_⟩
  case R => exact (Prog.read (fun s => decode_bitmap (vecWords s.bitmap) 1024 (u32 (n * 65536)) buf 0) >>=
      fun p => Prog.lift (step_loop m n ((ps.map Prod.snd).map SSeq.begin) 65536) >>= fun q =>
        union_many_loop_prog dbg m
          (65536 + (((ps.map Prod.snd).map SSeq.begin).map It.end_).sum) q.1 q.2 p.2 (0 + p.1)) >>=
      fun q => Prog.ret (q.1 - 0, q.2)
  · intro s hs
    obtain ⟨s1, e2, hs1, b1⟩ := merge_loop_spec (dbg := dbg) hnl hon hs hex
    refine ⟨s1, ?_, hs1, b1.congr ?_⟩
    · unfold union_many_prog
      refine Reaches.lift e1 (Reaches.bind ?_)
      rw [show 65537 + (((ps.map Prod.snd).map SSeq.begin).map It.end_).sum
        = (65536 + (((ps.map Prod.snd).map SSeq.begin).map It.end_).sum) + 1 by omega]
      rw [union_many_loop_step hnl]
      exact Reaches.of_run (g := fun _ =>
        Prog.read (fun s => decode_bitmap (vecWords s.bitmap) 1024 (u32 (n * 65536)) buf 0) >>=
          fun p => Prog.lift (step_loop m n ((ps.map Prod.snd).map SSeq.begin) 65536) >>= fun q =>
            union_many_loop_prog dbg m
              (65536 + (((ps.map Prod.snd).map SSeq.begin).map It.end_).sum) q.1 q.2 p.2 (0 + p.1))
        (by rw [merge_loop_alone]; exact e2)
    · intro x hx
      rw [hs1.1.1] at hx
      exact Bool.eq_iff_iff.mpr ((hmemU x (by omega)).trans decide_eq_true_iff.symm)
  · intro s Q W hs hQ hW hcap
    have hlen := congrArg List.length hW
    rw [List.length_append, List.length_map] at hlen
    obtain ⟨o1, e2, w1⟩ := decode_bitmap_spec (p := 0) (out := buf) (b := n * 65536)
      (hQ.bitsAt (n := 1024) (by rw [hs.1.1]; exact Nat.le_refl _)) (by omega)
      (by show 0 + ((List.range 65536).filter Q).length ≤ _; omega) (by omega)
    have e2' : decode_bitmap (vecWords s.bitmap) 1024 (n * 65536) buf 0
          = .ok (((List.range 65536).filter Q).length, o1) := e2
    have l1 := w1.length
    obtain ⟨s2, o2, e4, hs2, w2⟩ := union_many_loop_spec (dbg := dbg)
      (65536 + (((ps.map Prod.snd).map SSeq.begin).map It.end_).sum)
      (out := 0 + ((List.range 65536).filter Q).length) (s := s) (buf := o1) hon' hs hmin'
      (by omega) hZ2 (by omega)
    refine ⟨o2, s2, ?_, ?_⟩
    · rw [Prog.run_bind, Prog.run_bind, Prog.run_read, u32_lt (by omega), e2']
      show (Prog.run _ _ >>= _) = _
      rw [e3, lift_ok_bind, union_many_loop_alone, e4]
      show Except.ok _ = _
      rw [hlen]
      simp only [Nat.zero_add, Nat.sub_zero]
    · rw [hW]
      exact Wrote.append w1 (by rw [List.length_map]; exact w2)

theorem mem_shifted {Q : Nat → Bool} {h x : Nat} (hx : x < 65536) :
    h * 65536 + x ∈ ((List.range 65536).filter Q).map (h * 65536 + ·) ↔ Q x = true := by
  rw [List.mem_map]
  constructor
  · rintro ⟨y, hy, e⟩
    have : y = x := by omega
    exact this ▸ (List.mem_filter.mp hy).2
  · exact fun h => ⟨x, List.mem_filter.mpr ⟨List.mem_range.mpr hx, h⟩, rfl⟩

theorem shifted_slice {h x : Nat} (hx : x < 65536) : ¬ h < (h * 65536 + x) / 65536 := by omega

theorem shifted_length {h j : Nat} (Z : List Nat) :
    (((List.range 65536).filter (fun x => decide (j * 65536 + x ∈ Z))).map (h * 65536 + ·)).length
      ≤ Z.length := by
  rw [List.length_map, ← List.length_map (f := (j * 65536 + ·))]
  refine List.Nodup.length_le_of_subset ?_ ?_
  · rw [List.Nodup, List.pairwise_map]
    exact (List.nodup_range.filter _).imp (fun hab => by omega)
  · intro v hv
    obtain ⟨y, hy, rfl⟩ := List.mem_map.mp hv
    exact of_decide_eq_true (List.mem_filter.mp hy).2

/-- C56: two calls of `union_many` at the same time, with any arguments.  If one of them has filled the
bitmap for its first slice (`h`) when the other one fills it for its own (`j`), then the first call
writes the elements of the other call's slice in place of those of its own. -/
theorem C56_union_many_corrupted {ps qs : List (List Nat × SSeq)} {Z Z' W out out' : List Nat} {h j : Nat}
    (hps : StoredAll dbg₁ pad m ps) (hqs : StoredAll dbg₂ pad m qs)
    (hZ : Enumerates Z (fun v => ∃ p ∈ ps, v ∈ p.1)) (hZ' : Enumerates Z' (fun v => ∃ p ∈ qs, v ∈ p.1))
    (hh : FirstSlice Z h) (hj : FirstSlice Z' j) (s : MScratch) (hs : s.Ok)
    (hW : W = ((List.range 65536).filter (fun x => decide (j * 65536 + x ∈ Z'))).map (h * 65536 + ·)
      ++ Z.filter (fun v => decide (h < v / 65536)))
    (hcap : W.length ≤ out.length) :
    ∃ sched a B t, interleave sched (union_many_prog dbg m (ps.map Prod.snd) out 0)
        (union_many_prog dbg m (qs.map Prod.snd) out' 0) s = .ok (.ret a, B, t) ∧
      a.1 = W.length ∧ Wrote out 0 W 0 a.2 := by
  obtain ⟨R, r1, r2⟩ := union_many_reaches (dbg := dbg) (buf := out) hps hZ hh
  obtain ⟨R', r3, -⟩ := union_many_reaches (dbg := dbg) (buf := out') hqs hZ' hj
  obtain ⟨s1, p1, hs1, -⟩ := r1 s hs
  obtain ⟨s2, p2, hs2, b2⟩ := r3 s1 hs1
  obtain ⟨o, s3, e, w⟩ := r2 s2 _ W hs2 b2 hW hcap
  obtain ⟨n1, f1⟩ := p1.first (β := Nat × List Nat)
  obtain ⟨n2, f2⟩ := p2.second (α := Nat × List Nat)
  obtain ⟨n3, f3⟩ := interleave_finish (t := []) (B := R') e
  refine ⟨List.replicate n1 true ++ (List.replicate n2 false ++ (List.replicate n3 true ++ [])),
    (W.length, o), R', s3, ?_, rfl, w⟩
  rw [f1, f2, f3]; rfl

/-- C56: so there is a schedule under which the first call finishes with a wrong result, unless the two
first slices have the same contents. -/
theorem C56_union_many_wrong {ps qs : List (List Nat × SSeq)} {Z Z' out out' : List Nat} {h j x : Nat}
    (hps : StoredAll dbg₁ pad m ps) (hqs : StoredAll dbg₂ pad m qs)
    (hZ : Enumerates Z (fun v => ∃ p ∈ ps, v ∈ p.1)) (hZ' : Enumerates Z' (fun v => ∃ p ∈ qs, v ∈ p.1))
    (hh : FirstSlice Z h) (hj : FirstSlice Z' j) (hx : x < 65536)
    (hd : ¬ (h * 65536 + x ∈ Z ↔ j * 65536 + x ∈ Z')) (s : MScratch) (hs : s.Ok)
    (hcap : Z.length + Z'.length ≤ out.length) :
    ∃ sched a B t, interleave sched (union_many_prog dbg m (ps.map Prod.snd) out 0)
        (union_many_prog dbg m (qs.map Prod.snd) out' 0) s = .ok (.ret a, B, t) ∧
      ¬ (a.1 = Z.length ∧ a.2.take Z.length = Z) := by
  have hlen : (((List.range 65536).filter (fun x => decide (j * 65536 + x ∈ Z'))).map (h * 65536 + ·)
      ++ Z.filter (fun v => decide (h < v / 65536))).length ≤ out.length := by
    rw [List.length_append]
    have h1 := List.length_filter_le (fun v => decide (h < v / 65536)) Z
    have h2 := shifted_length (h := h) (j := j) Z'
    omega
  obtain ⟨sched, a, B, t, e, h1, h2⟩ := C56_union_many_corrupted (dbg := dbg) (out' := out') hps hqs hZ hZ'
    hh hj s hs rfl hlen
  refine ⟨sched, a, B, t, e, ?_⟩
  rintro ⟨h3, h4⟩
  have hW := h2.take
  rw [List.drop_zero, ← h1, h3, h4] at hW
  refine hd ?_
  rw [hW, List.mem_append, mem_shifted hx]
  constructor
  · rintro (g | g)
    · exact of_decide_eq_true g
    · exact absurd (of_decide_eq_true (List.mem_filter.mp g).2) (shifted_slice hx)
  · exact fun h => Or.inl (decide_eq_true h)

/-! ## Two calls of intersection -/

/-- A call of `intersection` on lists that lie in one slice `h` and have common elements. -/
theorem intersection_reaches {sort : (SSeq → Nat) → List SSeq → List SSeq} (hsort : SortOk sort)
    {ps : List (List Nat × SSeq)} {Z buf : List Nat} {h : Nat} (hps : StoredAll dbg₁ pad m ps)
    (hne : ps ≠ []) (hZ : Enumerates Z (fun v => ∀ p ∈ ps, v ∈ p.1)) (hZne : Z ≠ [])
    (hh : ∀ p ∈ ps, ∀ v ∈ p.1, v / 65536 = h) (s : IScratch) (hs : s.Ok) :
    ∃ (R : Prog IScratch (Nat × List Nat)) (s' : IScratch),
      Reaches (intersection_prog dbg sort m (ps.map Prod.snd) buf 0) s R s' ∧ s'.Ok ∧
      BufIs s'.bitmap (fun x => decide (h * 65536 + x ∈ Z)) ∧
      ∀ (s : IScratch) (Q : Nat → Bool) W, s.Ok → BufIs s.bitmap Q →
        W = ((List.range 65536).filter Q).map (h * 65536 + ·) → W.length ≤ buf.length →
        ∃ o s', R.run s = .ok ((W.length, o), s') ∧ Wrote buf 0 W 0 o := by
  let key := fun q => (((ps.map (fun p => (p.2, p.1.length))).find? (fun p => p.1 = q)).map
    Prod.snd).getD 0
  obtain ⟨hp, -⟩ := hsort key (ps.map Prod.snd)
  obtain ⟨qs, hq, eq⟩ := perm_lift hp rfl
  have hqs := hps.perm hq
  have hqne : qs ≠ [] := by
    intro h
    rw [h] at hq
    exact hne (List.nil_perm.mp hq)
  have hc := hqs.seqsAt
  have hssne : qs.map Prod.snd ≠ [] := by simpa using hqne
  obtain ⟨it0, c, headers', H, er, hid, e1, lh, hH, hHs⟩ := candidate_phase_spec hssne hc hs
  obtain ⟨st2, i2, a2, hpos, ok2⟩ := hc.ph2 hssne
  have hHc := headers_common hssne hc hHs
  -- which elements the lists have in common
  have hmem : ∀ v, v ∈ Z ↔ ∀ cs ∈ qs.map (fun p => chunksOf p.1), v ∈ seqElems cs := by
    intro v
    rw [hZ.2 v]
    constructor
    · intro h cs hcs
      obtain ⟨p, hp, rfl⟩ := List.mem_map.mp hcs
      rw [seqElems_chunksOf (hqs p hp).1]
      exact h p (hq.mem_iff.mp hp)
    · intro h p hp
      have hp := hq.mem_iff.mpr hp
      have := h _ (List.mem_map.mpr ⟨p, hp, rfl⟩)
      rwa [seqElems_chunksOf (hqs p hp).1] at this
  have hwf : ∀ cs ∈ qs.map (fun p => chunksOf p.1), ChunksWF cs := hc.begin.wf
  have hZi : ∀ v ∈ Z, v / 65536 = h := by
    intro v hv
    obtain ⟨p, hp⟩ := List.exists_mem_of_ne_nil _ hne
    exact hh p hp v ((hZ.2 v).mp hv p hp)
  have hcom : ∀ cs ∈ qs.map (fun p => chunksOf p.1), h ∈ cs.map Chk.id := by
    intro cs hcs
    obtain ⟨v, hv⟩ := List.exists_mem_of_ne_nil _ hZne
    have := ((mem_seqElems_iff (hwf cs hcs)).mp ((hmem v).mp hv cs hcs)).1
    rwa [hZi v hv] at this
  have hHeq : H = [h] := by
    apply sorted_ext hHs.1 (by simp)
    intro x
    rw [hHs.2 x, List.mem_singleton]
    constructor
    · intro hx
      obtain ⟨p, hp⟩ := List.exists_mem_of_ne_nil _ hqne
      have hx := hx _ (List.mem_map_of_mem (List.mem_map.mpr ⟨p, hp, rfl⟩))
      obtain ⟨d, hd, rfl⟩ := List.mem_map.mp hx
      have hdw := (hwf _ (List.mem_map.mpr ⟨p, hp, rfl⟩)).2 d hd
      obtain ⟨y, hy⟩ := List.exists_mem_of_length_pos hdw.card_pos
      have hyl := hdw.2.bound y hy
      have hv : d.id * 65536 + y ∈ seqElems (chunksOf p.1) :=
        List.mem_flatMap.mpr ⟨d, hd, (mem_chk_elems hdw).mpr ⟨by omega, by
          rw [show (d.id * 65536 + y) % 65536 = y by omega]; exact hy⟩⟩
      rw [seqElems_chunksOf (hqs p hp).1] at hv
      have := hh p (hq.mem_iff.mp hp) _ hv
      omega
    · rintro rfl a ha
      obtain ⟨cs, hcs, rfl⟩ := List.mem_map.mp ha
      exact hcom cs hcs
  subst hHeq
  have hhl : h < 65536 := (hHc h (by simp)).1
  obtain ⟨it1, it', c1, b1, sk, st', t2, b2, er1, e2, eid, e3, e4, ha2, hk2, lt2, wb2, hs1, hs2⟩ :=
    intersect_slice_spec (dbg := dbg) (s := { s with headers := headers' }) a2 hpos hcom (ok2 h)
      ⟨lh, hs.2.1, hs.2.2⟩
  have hrd : rdv headers' 0 = .ok h := by
    have h1 : headers'[0]? = some h := by
      have := congrArg (fun L => L[0]?) hH
      simpa using this
    unfold rdv
    rw [h1]
  have hbits : ∀ x, x < 65536 → ((qs.map (fun p => chunksOf p.1)).all (fun cs => decide (x ∈ valsAt h cs))
      = true ↔ h * 65536 + x ∈ Z) := by
    intro x hx
    rw [hmem, List.all_eq_true]
    constructor
    · intro ha cs hcs
      refine (mem_seqElems_iff (hwf cs hcs)).mpr ?_
      rw [show (h * 65536 + x) / 65536 = h by omega, show (h * 65536 + x) % 65536 = x by omega]
      exact ⟨hcom cs hcs, of_decide_eq_true (ha cs hcs)⟩
    · intro ha cs hcs
      have := ((mem_seqElems_iff (hwf cs hcs)).mp (ha cs hcs)).2
      rw [show (h * 65536 + x) / 65536 = h by omega, show (h * 65536 + x) % 65536 = x by omega] at this
      exact decide_eq_true this
  have hsk : sk = false := by
    cases sk with
    | false => rfl
    | true =>
      obtain ⟨v, hv⟩ := List.exists_mem_of_ne_nil _ hZne
      have hvi := hZi v hv
      have h1 := hs1 rfl (v % 65536) (by omega)
      have h2 := (hbits (v % 65536) (by omega)).mpr (by
        rw [show h * 65536 + v % 65536 = v by omega]; exact hv)
      rw [h1] at h2
      cases h2
  subst hsk
  refine ⟨(Prog.read (fun s => decode_bitmap (vecWords s.bitmap) 1024 (u32 (h * 65536)) buf 0) >>=
      fun p => intersect_headers_prog dbg m 0 1 (ph2Its st') p.2 (0 + p.1)) >>=
      fun q => Prog.ret (q.1 - 0, q.2), ⟨headers', b2, t2⟩, ?_, ⟨lh, wb2, lt2⟩, ?_, ?_⟩
  · unfold intersection_prog
    refine Reaches.lift (mapM_cardinality hps) ?_
    show Reaches (intersection_sorted_prog dbg m (sort (fun q => (((ps.map (fun p => (p.2, p.1.length))).find?
      (fun p => p.1 = q)).map Prod.snd).getD 0) (ps.map Prod.snd)) buf) s _ _
    rw [show sort (fun q => (((ps.map (fun p => (p.2, p.1.length))).find?
      (fun p => p.1 = q)).map Prod.snd).getD 0) (ps.map Prod.snd) = qs.map Prod.snd from eq.symm]
    unfold intersection_sorted_prog
    refine Reaches.lift er (Reaches.lift hid ?_)
    refine Reaches.trans (Reaches.of_run (a := 1) (s' := { s with headers := headers' }) ?_) ?_
    · rw [candidate_while_alone, e1]; rfl
    refine Reaches.bind ?_
    rw [intersect_headers_prog]
    refine Reaches.trans (Reaches.of_run (a := h) (s' := { s with headers := headers' }) ?_) ?_
    · rw [Prog.run_read, hrd]; rfl
    rw [← i2]
    have hass : cassert dbg (h == h) = .ok () := by simp [cassert]
    refine Reaches.lift er1 (Reaches.lift e2 (Reaches.lift eid (Reaches.lift hass ?_)))
    refine Reaches.trans (Reaches.of_run (a := c1) (s' := ⟨headers', b1, s.tmp⟩) ?_) ?_
    · rw [Prog.run_update, e3]; rfl
    refine Reaches.trans (Reaches.of_run (a := (false, ph2Its st')) (s' := ⟨headers', b2, t2⟩) ?_) ?_
    · rw [intersect_rest_alone, e4]; rfl
    exact Reaches.refl _ _
  · refine (hs2 rfl).congr (fun x hx => ?_)
    rw [wb2.1] at hx
    exact Bool.eq_iff_iff.mpr ((hbits x (by omega)).trans decide_eq_true_iff.symm)
  · intro s Q W hs hQ hW hcap
    have hlen := congrArg List.length hW
    rw [List.length_map] at hlen
    obtain ⟨o1, e5, w1⟩ := decode_bitmap_spec (p := 0) (out := buf) (b := h * 65536)
      (hQ.bitsAt (n := 1024) (by rw [hs.2.1.1]; exact Nat.le_refl _)) (by omega)
      (by show 0 + ((List.range 65536).filter Q).length ≤ _; omega) (by omega)
    have e5' : decode_bitmap (vecWords s.bitmap) 1024 (h * 65536) buf 0
          = .ok (((List.range 65536).filter Q).length, o1) := e5
    refine ⟨o1, s, ?_, ?_⟩
    · rw [Prog.run_bind, Prog.run_bind, Prog.run_read, u32_lt (by omega), e5', hlen]
      show Except.ok _ = _
      simp only [Nat.zero_add, Nat.sub_zero]
    · rw [hW]; exact w1

/-- C56: two calls of `intersection` at the same time, each on lists within one slice. -/
theorem C56_intersection_corrupted {sort : (SSeq → Nat) → List SSeq → List SSeq} (hsort : SortOk sort)
    {ps qs : List (List Nat × SSeq)} {Z Z' W out out' : List Nat} {h j : Nat}
    (hps : StoredAll dbg₁ pad m ps) (hqs : StoredAll dbg₂ pad m qs) (hne : ps ≠ []) (hne' : qs ≠ [])
    (hZ : Enumerates Z (fun v => ∀ p ∈ ps, v ∈ p.1)) (hZ' : Enumerates Z' (fun v => ∀ p ∈ qs, v ∈ p.1))
    (hz : Z ≠ []) (hz' : Z' ≠ []) (hh : ∀ p ∈ ps, ∀ v ∈ p.1, v / 65536 = h)
    (hj : ∀ p ∈ qs, ∀ v ∈ p.1, v / 65536 = j) (s : IScratch) (hs : s.Ok)
    (hW : W = ((List.range 65536).filter (fun x => decide (j * 65536 + x ∈ Z'))).map (h * 65536 + ·))
    (hcap : W.length ≤ out.length) :
    ∃ sched a B t, interleave sched (intersection_prog dbg sort m (ps.map Prod.snd) out 0)
        (intersection_prog dbg sort m (qs.map Prod.snd) out' 0) s = .ok (.ret a, B, t) ∧
      a.1 = W.length ∧ Wrote out 0 W 0 a.2 := by
  obtain ⟨R, s1, p1, hs1, -, r2⟩ := intersection_reaches (dbg := dbg) (buf := out) hsort hps hne hZ hz hh s hs
  obtain ⟨R', s2, p2, hs2, b2, -⟩ := intersection_reaches (dbg := dbg) (buf := out') hsort hqs hne' hZ' hz'
    hj s1 hs1
  obtain ⟨o, s3, e, w⟩ := r2 s2 _ W hs2 b2 hW hcap
  obtain ⟨n1, f1⟩ := p1.first (β := Nat × List Nat)
  obtain ⟨n2, f2⟩ := p2.second (α := Nat × List Nat)
  obtain ⟨n3, f3⟩ := interleave_finish (t := []) (B := R') e
  refine ⟨List.replicate n1 true ++ (List.replicate n2 false ++ (List.replicate n3 true ++ [])),
    (W.length, o), R', s3, ?_, rfl, w⟩
  rw [f1, f2, f3]; rfl

/-- C56: so the first call finishes with a wrong result, unless the common elements are at the same
places of the two slices. -/
theorem C56_intersection_wrong {sort : (SSeq → Nat) → List SSeq → List SSeq} (hsort : SortOk sort)
    {ps qs : List (List Nat × SSeq)} {Z Z' out out' : List Nat} {h j x : Nat}
    (hps : StoredAll dbg₁ pad m ps) (hqs : StoredAll dbg₂ pad m qs) (hne : ps ≠ []) (hne' : qs ≠ [])
    (hZ : Enumerates Z (fun v => ∀ p ∈ ps, v ∈ p.1)) (hZ' : Enumerates Z' (fun v => ∀ p ∈ qs, v ∈ p.1))
    (hz : Z ≠ []) (hz' : Z' ≠ []) (hh : ∀ p ∈ ps, ∀ v ∈ p.1, v / 65536 = h)
    (hj : ∀ p ∈ qs, ∀ v ∈ p.1, v / 65536 = j) (hx : x < 65536)
    (hd : ¬ (h * 65536 + x ∈ Z ↔ j * 65536 + x ∈ Z')) (s : IScratch) (hs : s.Ok)
    (hcap : Z'.length ≤ out.length) :
    ∃ sched a B t, interleave sched (intersection_prog dbg sort m (ps.map Prod.snd) out 0)
        (intersection_prog dbg sort m (qs.map Prod.snd) out' 0) s = .ok (.ret a, B, t) ∧
      ¬ (a.1 = Z.length ∧ a.2.take Z.length = Z) := by
  have hlen := shifted_length (h := h) (j := j) Z'
  obtain ⟨sched, a, B, t, e, h1, h2⟩ := C56_intersection_corrupted (dbg := dbg) (out := out) (out' := out')
    hsort hps hqs hne hne' hZ hZ' hz hz' hh hj s hs rfl (by omega)
  refine ⟨sched, a, B, t, e, ?_⟩
  rintro ⟨h3, h4⟩
  have hW := h2.take
  rw [List.drop_zero, ← h1, h3, h4] at hW
  refine hd ?_
  rw [hW, mem_shifted hx, decide_eq_true_iff]

/-! ## All four operations at the same time -/

/-- A call of `union_many`: the lists with the sequences that store them, their union, and the output
buffer. -/
structure UnionManyCall (dbg : Bool) (m : Mem) where
  pad : Nat
  ps : List (List Nat × SSeq)
  Z : List Nat
  out : List Nat
  stored : StoredAll dbg pad m ps
  some : ps ≠ []
  union : Enumerates Z (fun v => ∃ p ∈ ps, v ∈ p.1)
  room : Z.length ≤ out.length

def UnionManyCall.prog (dbg' : Bool) (c : UnionManyCall dbg m) : Prog MScratch (Nat × List Nat) :=
  union_many_prog dbg' m (c.ps.map Prod.snd) c.out 0

/-- The call returns the size of the union and writes the union and nothing else. -/
def UnionManyCall.Right (c : UnionManyCall dbg m) (v : Nat × List Nat) : Prop :=
  v.1 = c.Z.length ∧ Wrote c.out 0 c.Z 0 v.2

/-- A call of `intersection`. -/
structure InterManyCall (dbg : Bool) (m : Mem) where
  pad : Nat
  ps : List (List Nat × SSeq)
  Z : List Nat
  out : List Nat
  stored : StoredAll dbg pad m ps
  some : ps ≠ []
  inter : Enumerates Z (fun v => ∀ p ∈ ps, v ∈ p.1)
  room : Z.length ≤ out.length

def InterManyCall.prog (dbg' : Bool) (sort : (SSeq → Nat) → List SSeq → List SSeq) (c : InterManyCall dbg m) :
    Prog IScratch (Nat × List Nat) :=
  intersection_prog dbg' sort m (c.ps.map Prod.snd) c.out 0

def InterManyCall.Right (c : InterManyCall dbg m) (v : Nat × List Nat) : Prop :=
  v.1 = c.Z.length ∧ Wrote c.out 0 c.Z 0 v.2

theorem one_at_most {β : Type _} {l : List β} (h : l.length ≤ 1) (i : Nat) (c : β) (hc : l[i]? = some c)
    (hne : i ≠ 0) : False := by
  have := (List.getElem?_eq_some_iff.mp hc).1
  omega

theorem C56_union_many_allRight (us : List (UnionManyCall dbg₁ m)) (h1 : us.length ≤ 1) (s : MScratch)
    (hs : s.Ok) : AllRight (us.map (UnionManyCall.prog dbg)) (us.map UnionManyCall.Right) s := by
  refine schedule_allRight us _ UnionManyCall.Right 0 s
    (fun i c hc hne => (one_at_most h1 i c hc hne).elim) (fun c _ => ?_)
  obtain ⟨s', o, e, -, w⟩ := C13_union (dbg := dbg) c.stored c.some c.union s hs c.out 0
    (by have := c.room; omega)
  refine ⟨(c.Z.length, o), s', ?_, rfl, w⟩
  unfold UnionManyCall.prog
  rw [C56_union_many_alone, e]; rfl

theorem C56_intersection_allRight {sort : (SSeq → Nat) → List SSeq → List SSeq} (hsort : SortOk sort)
    (is : List (InterManyCall dbg₁ m)) (h1 : is.length ≤ 1) (s : IScratch) (hs : s.Ok) :
    AllRight (is.map (InterManyCall.prog dbg sort)) (is.map InterManyCall.Right) s := by
  refine schedule_allRight is _ InterManyCall.Right 0 s
    (fun i c hc hne => (one_at_most h1 i c hc hne).elim) (fun c _ => ?_)
  obtain ⟨qs, s', o, e, -, -, -, w⟩ := C12_intersection (dbg := dbg) hsort c.stored c.some c.inter s hs
    c.out 0 (by have := c.room; omega)
  refine ⟨(c.Z.length, o), s', ?_, rfl, w⟩
  unfold InterManyCall.prog
  rw [C56_intersection_alone, e]; rfl

/-- C56: two-way unions, two-way intersections, `union_many` and `intersection` all at the same time.
They do not share a static object with one another.  So, with any number of two-way calls of which at
most one union and one intersection use their scratch objects, at most one call of `union_many` and at
most one of `intersection`, every call is right, whatever the order in which they take turns. -/
theorem C56_mixed {sort : (SSeq → Nat) → List SSeq → List SSeq} (ht : TabOk tab) (hsort : SortOk sort)
    (us : List (UnionCall dbg₁ m)) (is : List (InterCall dbg₂ m)) (ums : List (UnionManyCall dbg₃ m))
    (ims : List (InterManyCall dbg₄ m)) (k k' : Nat)
    (hu : ∀ (i : Nat) c, us[i]? = some c → i ≠ k → c.Quiet)
    (hi : ∀ (i : Nat) c, is[i]? = some c → i ≠ k' → c.Quiet)
    (hum : ums.length ≤ 1) (him : ims.length ≤ 1) (s : UScratch) (hs : s.Ok) (x : List Nat)
    (hx : x.length = 1024) (t : MScratch) (htk : t.Ok) (w : IScratch) (hw : w.Ok) :
    AllRight
      (((us.map (UnionCall.prog dbg)).map Prog.onFst
          ++ (is.map (InterCall.prog dbg tab)).map Prog.onSnd).map Prog.onFst
        ++ ((ums.map (UnionManyCall.prog dbg)).map Prog.onFst
          ++ (ims.map (InterManyCall.prog dbg sort)).map Prog.onSnd).map Prog.onSnd)
      ((us.map UnionCall.Right ++ is.map InterCall.Right)
        ++ (ums.map UnionManyCall.Right ++ ims.map InterManyCall.Right)) ((s, x), (t, w)) :=
  (C55_mixed ht us is k k' hu hi s hs x hx).separate
    ((C56_union_many_allRight ums hum t htk).separate (C56_intersection_allRight hsort ims him w hw))

theorem range_filter_one {Q : Nat → Bool} {y : Nat} (hy : y < 65536) (h : ∀ x < 65536, Q x = true ↔ x = y) :
    (List.range 65536).filter Q = [y] := by
  refine sorted_ext (List.pairwise_lt_range.filter _) (by simp) (fun x => ?_)
  rw [List.mem_filter, List.mem_range, List.mem_singleton]
  exact ⟨fun ⟨h1, h2⟩ => (h x h1).mp h2, fun e => ⟨e ▸ hy, (h x (e ▸ hy)).mpr e⟩⟩

/-- Two calls of `union_many` at the same time, one on `[5, 9]` and `[9, 70000]`, the other on `[131079]`
and `[7, 131079]`: the first one can return `7, 70000`. -/
example : ∃ m ps qs sched a B t, ps.map Prod.fst = [[5, 9], [9, 70000]] ∧
    qs.map Prod.fst = [[131079], [7, 131079]] ∧ StoredAll true 0 m ps ∧ StoredAll true 0 m qs ∧
    interleave sched (union_many_prog false m (ps.map Prod.snd) (List.replicate 5 0) 0)
      (union_many_prog false m (qs.map Prod.snd) (List.replicate 2 0) 0) MScratch.init
        = .ok (.ret a, B, t) ∧ a.1 = 2 ∧ a.2.take 2 = [7, 70000] := by
  have hv : ∀ xs ∈ [[5, 9], [9, 70000], [131079], [7, 131079]], Valid xs := by
    intro xs hx
    simp only [List.mem_cons, List.not_mem_nil, or_false] at hx
    rcases hx with rfl | rfl | rfl | rfl <;> exact ⟨by decide, by decide, by decide⟩
  obtain ⟨m, L, e, h⟩ := stored_many true 0 _ hv
  match L, e, h with
  | [(_, a), (_, b), (_, c), (_, d)], e, h =>
    simp only [List.map_cons, List.map_nil, List.cons.injEq, and_true] at e
    obtain ⟨rfl, rfl, rfl, rfl⟩ := e
    have h1 : StoredAll true 0 m [([5, 9], a), ([9, 70000], b)] := fun p hp =>
      h p (List.mem_append_left [([131079], c), ([7, 131079], d)] hp)
    have h2 : StoredAll true 0 m [([131079], c), ([7, 131079], d)] := fun p hp =>
      h p (List.mem_append_right [([5, 9], a), ([9, 70000], b)] hp)
    have z1 : Enumerates [5, 9, 70000] (fun v => ∃ p ∈ [([5, 9], a), ([9, 70000], b)], v ∈ p.1) :=
      ⟨by decide, fun v => by simp; omega⟩
    have z2 : Enumerates [7, 131079] (fun v => ∃ p ∈ [([131079], c), ([7, 131079], d)], v ∈ p.1) :=
      ⟨by decide, fun v => by simp; omega⟩
    have hf : (List.range 65536).filter (fun x => decide (0 * 65536 + x ∈ [7, 131079])) = [7] :=
      range_filter_one (by omega) (fun x hx => by simp; omega)
    obtain ⟨sched, a, B, t, e, e1, e2⟩ := C56_union_many_corrupted (dbg := false) (W := [7, 70000])
      (out := List.replicate 5 0) (out' := List.replicate 2 0) (h := 0) (j := 0) h1 h2 z1 z2
      ⟨⟨5, by simp, rfl⟩, fun _ _ => Nat.zero_le _⟩ ⟨⟨7, by simp, rfl⟩, fun _ _ => Nat.zero_le _⟩
      MScratch.init MScratch.init_ok (by rw [hf]; rfl) (by rw [List.length_replicate]; decide)
    exact ⟨m, _, _, sched, a, B, t, rfl, rfl, h1, h2, e, e1, e2.take⟩

/-- Two calls of `intersection` at the same time, one on `[5, 9]` and `[9, 11]`, the other on
`[131079, 131080]` and `[131079]`: the first one can return `7`, which is in neither of its lists. -/
example : ∃ m ps qs sched a B t, ps.map Prod.fst = [[5, 9], [9, 11]] ∧
    qs.map Prod.fst = [[131079, 131080], [131079]] ∧ StoredAll true 0 m ps ∧ StoredAll true 0 m qs ∧
    interleave sched (intersection_prog false stdSort m (ps.map Prod.snd) (List.replicate 2 0) 0)
      (intersection_prog false stdSort m (qs.map Prod.snd) (List.replicate 1 0) 0) IScratch.init
        = .ok (.ret a, B, t) ∧ a.1 = 1 ∧ a.2.take 1 = [7] := by
  have hv : ∀ xs ∈ [[5, 9], [9, 11], [131079, 131080], [131079]], Valid xs := by
    intro xs hx
    simp only [List.mem_cons, List.not_mem_nil, or_false] at hx
    rcases hx with rfl | rfl | rfl | rfl <;> exact ⟨by decide, by decide, by decide⟩
  obtain ⟨m, L, e, h⟩ := stored_many true 0 _ hv
  match L, e, h with
  | [(_, a), (_, b), (_, c), (_, d)], e, h =>
    simp only [List.map_cons, List.map_nil, List.cons.injEq, and_true] at e
    obtain ⟨rfl, rfl, rfl, rfl⟩ := e
    have h1 : StoredAll true 0 m [([5, 9], a), ([9, 11], b)] := fun p hp =>
      h p (List.mem_append_left [([131079, 131080], c), ([131079], d)] hp)
    have h2 : StoredAll true 0 m [([131079, 131080], c), ([131079], d)] := fun p hp =>
      h p (List.mem_append_right [([5, 9], a), ([9, 11], b)] hp)
    have z1 : Enumerates [9] (fun v => ∀ p ∈ [([5, 9], a), ([9, 11], b)], v ∈ p.1) :=
      ⟨by decide, fun v => by simp; omega⟩
    have z2 : Enumerates [131079] (fun v => ∀ p ∈ [([131079, 131080], c), ([131079], d)], v ∈ p.1) :=
      ⟨by decide, fun v => by simp; omega⟩
    have hf : (List.range 65536).filter (fun x => decide (2 * 65536 + x ∈ [131079])) = [7] :=
      range_filter_one (by omega) (fun x hx => by simp; omega)
    obtain ⟨sched, a, B, t, e, e1, e2⟩ := C56_intersection_corrupted (dbg := false) (W := [7])
      (out := List.replicate 2 0) (out' := List.replicate 1 0) (h := 0) (j := 2) stdSort_ok h1 h2
      (by simp) (by simp) z1 z2 (by simp) (by simp) (by simp) (by simp)
      IScratch.init IScratch.init_ok (by rw [hf]; rfl) (by rw [List.length_replicate]; decide)
    exact ⟨m, _, _, sched, a, B, t, rfl, rfl, h1, h2, e, e1, e2.take⟩

/-- The four operations at the same time, all on `[5, 9]` and `[9, 70000]`: every one is right. -/
example : ∃ (m : Mem) (a : UnionCall true m) (b : InterCall true m) (c : UnionManyCall true m)
    (d : InterManyCall true m), a.Z = [5, 9, 70000] ∧ b.Z = [9] ∧ c.Z = [5, 9, 70000] ∧ d.Z = [9] ∧
    AllRight [(a.prog false).onFst.onFst, (b.prog false stdTab).onSnd.onFst, (c.prog false).onFst.onSnd,
        (d.prog false stdSort).onSnd.onSnd] [a.Right, b.Right, c.Right, d.Right]
      ((UScratch.init, List.replicate 1024 0), (MScratch.init, IScratch.init)) := by
  have v1 : Valid [5, 9] := ⟨by decide, by decide, by decide⟩
  have v2 : Valid [9, 70000] := ⟨by decide, by decide, by decide⟩
  obtain ⟨m, l, r, a, b, bx, bY, h1, h2, h3⟩ := stored_pair true v1 v2 31
  have hst : StoredAll true 31 m [([5, 9], l), ([9, 70000], r)] := by
    intro p hp
    simp only [List.mem_cons, List.not_mem_nil, or_false] at hp
    rcases hp with rfl | rfl
    · exact ⟨v1, h1.stored⟩
    · exact ⟨v2, h2.stored⟩
  let A : UnionCall true m := ⟨l, r, _, _, [5, 9, 70000], List.replicate 26 0,
    ⟨⟨v1, v2⟩, a, b, bx, bY, h1, h2, Or.inr (Or.inl h3)⟩, ⟨by decide, fun v => by simp; omega⟩,
    by rw [List.length_replicate]; decide⟩
  let B : InterCall true m := ⟨l, r, _, _, [9], List.replicate 24 0, ⟨v1, v2⟩, ⟨h1.stored, h2.stored⟩,
    ⟨by decide, fun v => by simp; omega⟩, by rw [List.length_replicate]; decide⟩
  let C : UnionManyCall true m := ⟨31, _, [5, 9, 70000], List.replicate 3 0, hst, by simp,
    ⟨by decide, fun v => by simp; omega⟩, by rw [List.length_replicate]; decide⟩
  let D : InterManyCall true m := ⟨31, _, [9], List.replicate 1 0, hst, by simp,
    ⟨by decide, fun v => by simp; omega⟩, by rw [List.length_replicate]; decide⟩
  exact ⟨m, A, B, C, D, rfl, rfl, rfl, rfl, C56_mixed stdTab_ok stdSort_ok [A] [B] [C] [D] 0 0
    (fun i c hc hne => (one_at_most (l := [A]) (Nat.le_refl 1) i c hc hne).elim)
    (fun i c hc hne => (one_at_most (l := [B]) (Nat.le_refl 1) i c hc hne).elim) (Nat.le_refl 1) (Nat.le_refl 1)
    _ UScratch.init_ok _ List.length_replicate _ MScratch.init_ok _ IScratch.init_ok⟩

end Sliced
