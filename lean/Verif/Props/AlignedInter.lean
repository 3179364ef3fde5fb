import Verif.Proof.AlignedInter
import Verif.Props.AlignedSets
/-!
# C70, continued: the alignment of the words that the many-way `intersection` reads

The shortest list is copied byte by byte.  Of the others, in the order of their lengths, a bitmap is read as
64-bit words only for slices that all lists have, and only while the lists before still have something in
common there.  The search for these slices reads skip pointers only of lists with more than 32 slices.
-/
namespace Sliced

/-- The lists `ps` (with their addresses) in the order in which they are intersected: for every slice of
which all lists have a value and every list `q` but the first, if the lists before `q` have a value of the
slice in common and `q` stores the slice as a bitmap, then this bitmap is at a multiple of 8. -/
def InterManyAligned (ps : List (List Nat × Nat)) : Prop :=
  ∀ us q ws, ps = us ++ q :: ws → us ≠ [] → ∀ v, (∀ u ∈ us, v ∈ u.1) →
    (∀ w ∈ ps, ∃ y ∈ w.1, y / 65536 = v / 65536) →
    v / 65536 ∈ denseSlices q.1 → (q.2 + sliceStart q.1 (v / 65536)) % 8 = 0

/-! ## From the representation to the specification -/

theorem count16_ne_zero {P : Nat → Bool} : count16 P ≠ 0 ↔ ∃ x, x < 65536 ∧ P x = true := by
  constructor
  · intro h
    refine Classical.byContradiction (fun hn => h ?_)
    unfold count16
    rw [List.length_eq_zero_iff, List.filter_eq_nil_iff]
    intro x hx hp
    exact hn ⟨x, List.mem_range.mp hx, hp⟩
  · rintro ⟨x, hx, hp⟩ h0
    rw [count16_zero h0 x hx] at hp
    cases hp

theorem restGate_iff {h : Nat} {qs : List ((Nat → Nat) × List Chk)} {P : Nat → Bool}
    (hP : ∃ x, x < 65536 ∧ P x = true) :
    restGate h P qs ↔ ∀ us q ws, qs = us ++ q :: ws →
      (∃ x, x < 65536 ∧ P x = true ∧ ∀ u ∈ us, x ∈ valsAt h u.2) → sliceAt h q := by
  induction qs generalizing P with
  | nil =>
    refine ⟨fun _ us q ws e => ?_, fun _ => trivial⟩
    cases us <;> cases e
  | cons q0 qs ih =>
    have hd : restGate h P (q0 :: qs) ↔ sliceAt h q0 ∧
      (count16 (fun x => P x && decide (x ∈ valsAt h q0.2)) ≠ 0 →
        restGate h (fun x => P x && decide (x ∈ valsAt h q0.2)) qs) := Iff.rfl
    rw [hd, count16_ne_zero]
    constructor
    · rintro ⟨h1, h2⟩ us q ws e ⟨x, hx, hp, hu⟩
      cases us with
      | nil =>
        rw [List.nil_append, List.cons.injEq] at e
        rw [← e.1]; exact h1
      | cons u us =>
        rw [List.cons_append, List.cons.injEq] at e
        obtain ⟨rfl, e⟩ := e
        have hx0 : (P x && decide (x ∈ valsAt h q0.2)) = true := by
          rw [hp, decide_eq_true (hu q0 List.mem_cons_self)]; rfl
        exact (ih ⟨x, hx, hx0⟩).mp (h2 ⟨x, hx, hx0⟩) us q ws e
          ⟨x, hx, hx0, fun u' hu' => hu u' (List.mem_cons_of_mem _ hu')⟩
    · intro k
      obtain ⟨x, hx, hp⟩ := hP
      refine ⟨k [] q0 qs rfl ⟨x, hx, hp, fun _ h => nomatch h⟩, fun hne => (ih hne).mpr ?_⟩
      rintro us q ws e ⟨y, hy, hpy, hu⟩
      rw [Bool.and_eq_true, decide_eq_true_eq] at hpy
      refine k (q0 :: us) q ws (by rw [e]; rfl) ⟨y, hy, hpy.1, ?_⟩
      intro u hu'
      rcases List.mem_cons.mp hu' with rfl | hu'
      · exact hpy.2
      · exact hu u hu'

section
variable {xs : List Nat} {a : Nat}

theorem mem_chunksOf {c : Chk} : c ∈ chunksOf xs ↔
    c.id < 65535 ∧ c.body = bodyOf (chunkVals xs c.id) ∧ chunkVals xs c.id ≠ [] := mem_chunksTo

end

attribute [local irreducible] chunksOf

section
variable {xs : List Nat} {a : Nat}

theorem valsAt_chunksOf (hv : Valid xs) {h x : Nat} (hx : x < 65536) (hm : h ∈ (chunksOf xs).map Chk.id) :
    x ∈ valsAt h (chunksOf xs) ↔ h * 65536 + x ∈ xs := by
  have hw : ChunksWF (chunksOf xs) := chunksOf_wf hv.2.1
  have := mem_seqElems_iff hw (v := h * 65536 + x)
  rw [seqElems_chunksOf hv, show (h * 65536 + x) / 65536 = h by omega,
    show (h * 65536 + x) % 65536 = x by omega] at this
  exact ⟨fun k => this.mpr ⟨hm, k⟩, fun k => (this.mp k).2⟩

theorem mem_chunk_ids (hv : Valid xs) {h : Nat} :
    h ∈ (chunksOf xs).map Chk.id ↔ ∃ y ∈ xs, y / 65536 = h := by
  rw [chunksOf_map_id]
  exact (slicesOf_enumerates hv).2 h

theorem sliceAt_iff (hv : Valid xs) {h : Nat} (hm : ∃ y ∈ xs, y / 65536 = h) :
    sliceAt h (placedChunks (xs, a)) ↔ (h ∈ denseSlices xs → (a + sliceStart xs h) % 8 = 0) := by
  obtain ⟨y, hy, rfl⟩ := hm
  have hi := valid_slice hv hy
  have hc := slice_has hy
  rw [← denseGate_iff hi hc]
  constructor
  · intro k
    exact k ⟨y / 65536, bodyOf (chunkVals xs (y / 65536))⟩
      (mem_chunksOf.mpr ⟨hi, rfl, sliceCard_ne_iff.mpr hc⟩) rfl
  · rintro k ⟨i, b⟩ hc' rfl
    obtain ⟨-, h2, -⟩ := mem_chunksOf.mp hc'
    simp only at h2
    rw [h2]
    exact k

end

theorem interManyAligned_iff {ps : List (List Nat × Nat)} (hv : ∀ p ∈ ps, Valid p.1) (hne : ps ≠ []) :
    (∀ x, (∀ q ∈ ps.map placedChunks, x ∈ q.2.map Chk.id) → interGate x (ps.map placedChunks)) ↔
      InterManyAligned ps := by
  obtain ⟨p0, ps', rfl⟩ : ∃ a b, ps = a :: b := by
    cases ps with
    | nil => exact absurd rfl hne
    | cons a b => exact ⟨a, b, rfl⟩
  have hcom : ∀ h, (∀ q ∈ (p0 :: ps').map placedChunks, h ∈ q.2.map Chk.id) ↔
      ∀ w ∈ p0 :: ps', ∃ y ∈ w.1, y / 65536 = h := by
    intro h
    constructor
    · intro k w hw
      exact (mem_chunk_ids (hv w hw)).mp (k _ (List.mem_map_of_mem hw))
    · intro k q hq
      obtain ⟨w, hw, rfl⟩ := List.mem_map.mp hq
      exact (mem_chunk_ids (hv w hw)).mpr (k w hw)
  have hv0 := hv p0 List.mem_cons_self
  have hex : ∀ h, (∀ w ∈ p0 :: ps', ∃ y ∈ w.1, y / 65536 = h) →
      ∃ x, x < 65536 ∧ decide (x ∈ valsAt h (placedChunks p0).2) = true := by
    intro h k
    obtain ⟨y, hy, rfl⟩ := k p0 List.mem_cons_self
    refine ⟨y % 65536, by omega, decide_eq_true ?_⟩
    refine (valsAt_chunksOf hv0 (by omega) ((mem_chunk_ids hv0).mpr ⟨y, hy, rfl⟩)).mpr ?_
    rw [show y / 65536 * 65536 + y % 65536 = y by omega]
    exact hy
  have hgate : ∀ h, interGate h ((p0 :: ps').map placedChunks) ↔
      restGate h (fun x => decide (x ∈ valsAt h (placedChunks p0).2)) (ps'.map placedChunks) :=
    fun _ => Iff.rfl
  constructor
  · intro k us q ws e hus v hu hall
    have hg := (hgate (v / 65536)).mp (k (v / 65536) ((hcom _).mpr hall))
    rw [restGate_iff (hex _ hall)] at hg
    have hq : q ∈ p0 :: ps' := by rw [e]; simp
    refine (sliceAt_iff (hv q hq) (hall q hq)).mp ?_
    cases us with
    | nil => exact absurd rfl hus
    | cons u us =>
      rw [List.cons_append, List.cons.injEq] at e
      obtain ⟨rfl, e⟩ := e
      refine hg (us.map placedChunks) (placedChunks q) (ws.map placedChunks)
        (by rw [e, List.map_append, List.map_cons]) ⟨v % 65536, by omega, ?_, ?_⟩
      · refine decide_eq_true ((valsAt_chunksOf hv0 (by omega)
          ((mem_chunk_ids hv0).mpr (hall p0 List.mem_cons_self))).mpr ?_)
        rw [show v / 65536 * 65536 + v % 65536 = v by omega]
        exact hu p0 List.mem_cons_self
      · intro u' hu'
        obtain ⟨w, hw, rfl⟩ := List.mem_map.mp hu'
        have hw' : w ∈ p0 :: ps' := by rw [e]; simp [hw]
        refine (valsAt_chunksOf (hv w hw') (by omega)
          ((mem_chunk_ids (hv w hw')).mpr (hall w hw'))).mpr ?_
        rw [show v / 65536 * 65536 + v % 65536 = v by omega]
        exact hu w (List.mem_cons_of_mem _ hw)
  · intro k h hh
    have hall := (hcom h).mp hh
    rw [hgate, restGate_iff (hex h hall)]
    rintro us' q' ws' e ⟨x, hx, hp, hu⟩
    obtain ⟨us, r, e1, e2, e3⟩ := List.map_eq_append_iff.mp e
    obtain ⟨q, ws, rfl, rfl, rfl⟩ := List.map_eq_cons_iff.mp e3
    subst e2
    have hq : q ∈ p0 :: ps' := by rw [e1]; simp
    refine (sliceAt_iff (hv q hq) (hall q hq)).mpr ?_
    have hdiv : (h * 65536 + x) / 65536 = h := by omega
    have := k (p0 :: us) q ws (by rw [e1]; rfl) (by simp) (h * 65536 + x) ?_ (by rw [hdiv]; exact hall)
    · rw [hdiv] at this; exact this
    · intro u hu'
      rcases List.mem_cons.mp hu' with rfl | hu'
      · exact (valsAt_chunksOf hv0 hx ((mem_chunk_ids hv0).mpr (hall _ List.mem_cons_self))).mp
          (of_decide_eq_true hp)
      · have hw' : u ∈ p0 :: ps' := by rw [e1]; simp [hu']
        exact (valsAt_chunksOf (hv u hw') hx ((mem_chunk_ids (hv u hw')).mpr (hall u hw'))).mp
          (hu _ (List.mem_map_of_mem hu'))

/-! ## The theorems -/

section
variable {dbg dbg' : Bool} {sort : (SSeq → Nat) → List SSeq → List SSeq} {m : Mem} {pad : Nat}
  {ps : List Placed} {Z : List Nat}

/-- the key of the comparator, as `intersection` computes it -/
def lengthKey (ps : List Placed) (q : SSeq) : Nat :=
  (((ps.map (fun p => (p.s, p.xs.length))).find? (fun p => p.1 = q)).map Prod.snd).getD 0

theorem stored_pairs (hv : ∀ p ∈ ps, Valid p.xs)
    (hps : ∀ p ∈ ps, StoredAt dbg' p.xs pad m p.a p.bytes p.s) :
    StoredAll dbg' pad m (ps.map (fun p => (p.xs, p.s))) := by
  intro p hp
  obtain ⟨q, hq, rfl⟩ := List.mem_map.mp hp
  exact ⟨hv q hq, (hps q hq).stored⟩

theorem sort_placed (hsort : SortOk sort) (hv : ∀ p ∈ ps, Valid p.xs)
    (hps : ∀ p ∈ ps, StoredAt dbg' p.xs pad m p.a p.bytes p.s) :
    ∃ qs : List Placed, qs.Perm ps ∧ qs.Pairwise (fun p q => p.xs.length ≤ q.xs.length) ∧
      sort (lengthKey ps) (ps.map Placed.s) = qs.map Placed.s := by
  obtain ⟨hp, hk⟩ := hsort (lengthKey ps) (ps.map Placed.s)
  obtain ⟨qs, hq, eq⟩ := perm_lift hp rfl
  refine ⟨qs, hq, ?_, eq.symm⟩
  rw [← eq, List.pairwise_map] at hk
  have key : ∀ p ∈ ps, lengthKey ps p.s = p.xs.length := by
    intro p hp
    have := key_cardinality (stored_pairs hv hps) (List.mem_map_of_mem hp)
    rw [List.map_map] at this
    exact this
  refine hk.imp_of_mem ?_
  intro a b ha hb hab
  rw [key a (hq.mem_iff.mp ha), key b (hq.mem_iff.mp hb)] at hab
  exact hab

theorem keysA (hv : ∀ p ∈ ps, Valid p.xs)
    (hps : ∀ p ∈ ps, StoredAt dbg' p.xs pad m p.a p.bytes p.s) (he : ∀ p ∈ ps, p.a % 2 = 0) :
    (ps.map Placed.s).mapM (fun q => do let c ← q.cardinalityA m; return (q, c))
      = (.ok (ps.map (fun p => (p.s, p.xs.length))) : Res (List (SSeq × Nat))) := by
  induction ps with
  | nil => rfl
  | cons p ps ih =>
    have ih := ih (fun q hq => hv q (List.mem_cons_of_mem _ hq))
      (fun q hq => hps q (List.mem_cons_of_mem _ hq)) (fun q hq => he q (List.mem_cons_of_mem _ hq))
    have h1 := hps p List.mem_cons_self
    rw [List.map_cons, List.mapM_cons, ih,
      SSeq.cardinalityA_eq (h1.header_even (he p List.mem_cons_self)),
      (C03_cardinality (hv p List.mem_cons_self) h1.stored).1]
    rfl

theorem placed_seqsAt (hv : ∀ p ∈ ps, Valid p.xs)
    (hps : ∀ p ∈ ps, StoredAt dbg' p.xs pad m p.a p.bytes p.s) :
    SeqsAt pad m (ps.map Placed.s) (ps.map (fun p => chunksOf p.xs)) := by
  have h := (stored_pairs hv hps).seqsAt
  have e1 : (ps.map (fun p => (p.xs, p.s))).map Prod.snd = ps.map Placed.s := by
    simp only [List.map_map, Function.comp_def]
  have e2 : (ps.map (fun p => (p.xs, p.s))).map (fun p => chunksOf p.1) = ps.map (fun p => chunksOf p.xs) := by
    simp only [List.map_map, Function.comp_def]
  rw [e1, e2] at h
  exact h

theorem placedChunks_chunks (ps : List Placed) :
    ((ps.map (fun p => (p.xs, p.a))).map placedChunks).map Prod.snd = ps.map (fun p => chunksOf p.xs) := by
  simp only [List.map_map, Function.comp_def, placedChunks]

theorem StoredAt.steady {xs : List Nat} {a : Nat} {bx : List UInt8} {l : SSeq} (hv : Valid xs)
    (hs : StoredAt dbg' xs pad m a bx l) (ha : a % 2 = 0)
    (hskip : (slicesOf xs).length ≤ 32 ∨ a % 4 = 2) : Steady l.begin := by
  refine ⟨hs.header_even ha, ?_⟩
  rcases hskip with h | h
  · have h1 := (hs.put hv).begin.end_
    rw [chunksOf_length] at h1
    exact Or.inr (by omega)
  · left
    have := hs.pointers_eq
    show l.pointers % 4 = 0
    omega

/-- C70: any number (at least one) of encodings at any addresses, those with more than 32 slices at
addresses that are 2 modulo 4, with room in the output buffer.  With `qs` the lists in the order that
`std::sort` brings them into, with checked alignment `intersection` writes the intersection if all addresses
are even and the bitmaps that it reads are aligned, and is undefined in all other cases. -/
theorem C70_intersection_many (hsort : SortOk sort) (hv : ∀ p ∈ ps, Valid p.xs)
    (hps : ∀ p ∈ ps, StoredAt dbg' p.xs pad m p.a p.bytes p.s) (hne : ps ≠ [])
    (hskip : ∀ p ∈ ps, (slicesOf p.xs).length ≤ 32 ∨ p.a % 4 = 2) :
    ∃ qs : List Placed, qs.Perm ps ∧ qs.Pairwise (fun p q => p.xs.length ≤ q.xs.length) ∧
      ∀ Z, Enumerates Z (fun v => ∀ p ∈ ps, v ∈ p.xs) → ∀ s : IScratch, s.Ok → ∀ out : List Nat,
        Z.length ≤ out.length →
        ((∀ p ∈ ps, p.a % 2 = 0) ∧ InterManyAligned (qs.map (fun p => (p.xs, p.a))) → ∃ s' out',
          intersectionManyAtA dbg sort m (ps.map Placed.a) s out
            = .ok (Z.length, qs.map Placed.s, s', out') ∧ Wrote out 0 Z 0 out') ∧
        (¬ ((∀ p ∈ ps, p.a % 2 = 0) ∧ InterManyAligned (qs.map (fun p => (p.xs, p.a)))) →
          intersectionManyAtA dbg sort m (ps.map Placed.a) s out = .error .ub) := by
  obtain ⟨qs, hperm, hord, hsrt⟩ := sort_placed hsort hv hps
  refine ⟨qs, hperm, hord, fun Z hZ s hs out hcap => ?_⟩
  have hv' : ∀ p ∈ qs, Valid p.xs := fun p hp => hv p (hperm.mem_iff.mp hp)
  have hps' : ∀ p ∈ qs, StoredAt dbg' p.xs pad m p.a p.bytes p.s := fun p hp => hps p (hperm.mem_iff.mp hp)
  have hqne : qs ≠ [] := by
    intro h
    rw [h] at hperm
    exact hne (List.nil_perm.mp hperm)
  unfold intersectionManyAtA
  have hg := ofAddrA_all hps
  by_cases he : ∀ p ∈ ps, p.a % 2 = 0
  · rw [hg.1 he, ok_bind]
    have he' : ∀ p ∈ qs, p.a % 2 = 0 := fun p hp => he p (hperm.mem_iff.mp hp)
    have hsa := placed_seqsAt hv' hps'
    obtain ⟨s', out', e, -, w⟩ := intersection_sorted_spec (dbg := dbg) (out := 0) (buf := out) (Z := Z)
      (by simpa using hqne) hsa hs ⟨hZ.1, fun v => (hZ.2 v).trans ⟨fun h cs hcs => by
        obtain ⟨p, hp, rfl⟩ := List.mem_map.mp hcs
        rw [seqElems_chunksOf (hv' p hp)]
        exact h p (hperm.mem_iff.mp hp), fun h p hp => by
        have hp := hperm.mem_iff.mpr hp
        have := h _ (List.mem_map_of_mem hp)
        rwa [seqElems_chunksOf (hv' p hp)] at this⟩⟩ (by omega)
    have g := intersection_sorted_aligned (dbg := dbg) (by simpa using hqne) hsa
      (itsPut_placed hv' hps' he') (placedChunks_chunks qs)
      (by
        intro q hq
        obtain ⟨p, hp, rfl⟩ := List.mem_map.mp hq
        exact (hps' p hp).steady (hv' p hp) (he' p hp) (hskip p (hperm.mem_iff.mp hp))) hs e
    replace g := g.iff (interManyAligned_iff (ps := qs.map (fun p => (p.xs, p.a))) (by
      intro p hp
      obtain ⟨q, hq, rfl⟩ := List.mem_map.mp hp
      exact hv' q hq) (by simpa using hqne))
    unfold intersectionA
    rw [keysA hv hps he, ok_bind]
    have hsrt' : sort (fun q => (((ps.map (fun p => (p.s, p.xs.length))).find?
        (fun p => p.1 = q)).map Prod.snd).getD 0) (ps.map Placed.s) = qs.map Placed.s := hsrt
    simp only [hsrt']
    refine ⟨fun h => ⟨s', out', ?_, w⟩, fun h => ?_⟩
    · rw [g.1 h.2]; rfl
    · rw [g.2 (fun h' => h ⟨he, h'⟩)]; rfl
  · rw [hg.2 he]
    exact ⟨fun h => absurd h.1 he, fun _ => rfl⟩

/-- lists of different lengths can be sorted in one way only -/
theorem sorted_unique {qs : List Placed} (hp : qs.Perm ps)
    (h1 : qs.Pairwise (fun p q => p.xs.length ≤ q.xs.length))
    (h2 : ps.Pairwise (fun p q => p.xs.length < q.xs.length)) : qs = ps := by
  induction ps generalizing qs with
  | nil => exact List.perm_nil.mp hp
  | cons p ps ih =>
    obtain ⟨k1, k2⟩ := List.pairwise_cons.mp h2
    cases qs with
    | nil => exact absurd (List.nil_perm.mp hp) (by simp)
    | cons q qs =>
      obtain ⟨l1, l2⟩ := List.pairwise_cons.mp h1
      have hq : q = p := by
        rcases List.mem_cons.mp (hp.mem_iff.mp List.mem_cons_self) with h | h
        · exact h
        · have := k1 q h
          rcases List.mem_cons.mp (hp.mem_iff.mpr (List.mem_cons_self (a := p) (l := ps))) with h' | h'
          · exact h'.symm
          · have := l1 p h'
            omega
      subst hq
      rw [ih ((List.perm_cons q).mp hp) l2 k2]

/-- C70: lists of different lengths, given in the order of their lengths: the condition in one line. -/
theorem C70_intersection_many_iff (hsort : SortOk sort) (hv : ∀ p ∈ ps, Valid p.xs)
    (hps : ∀ p ∈ ps, StoredAt dbg' p.xs pad m p.a p.bytes p.s)
    (hord : ps.Pairwise (fun p q => p.xs.length < q.xs.length))
    (hskip : ∀ p ∈ ps, (slicesOf p.xs).length ≤ 32 ∨ p.a % 4 = 2) {p : Placed} (hp : p ∈ ps)
    (s : IScratch) (hs : s.Ok) (out : List Nat) (hcap : p.xs.length ≤ out.length) :
    intersectionManyAtA dbg sort m (ps.map Placed.a) s out ≠ .error .ub ↔
      (∀ p ∈ ps, p.a % 2 = 0) ∧ InterManyAligned (ps.map (fun p => (p.xs, p.a))) := by
  have hne := List.ne_nil_of_mem hp
  obtain ⟨qs, h1, h2, h3⟩ := C70_intersection_many (dbg := dbg) hsort hv hps hne hskip
  obtain rfl := sorted_unique h1 h2 hord
  have hZ := interAll_spec (ps := qs.map (fun p => (p.xs, p.s))) (by
    intro p hp
    obtain ⟨q, hq, rfl⟩ := List.mem_map.mp hp
    exact hv q hq) (by simpa using hne)
  have hZ' : Enumerates (interAll ((qs.map (fun p => (p.xs, p.s))).map Prod.fst))
      (fun v => ∀ p ∈ qs, v ∈ p.xs) :=
    ⟨hZ.1, fun v => (hZ.2 v).trans ⟨fun h p hp => h _ (List.mem_map_of_mem hp), fun h p hp => by
      obtain ⟨q, hq, rfl⟩ := List.mem_map.mp hp
      exact h q hq⟩⟩
  have hl := List.Nodup.length_le_of_subset (hZ'.1.imp (fun h => Nat.ne_of_lt h)) (l₂ := p.xs)
    (fun v hv => (hZ'.2 v).mp hv p hp)
  have h := h3 _ hZ' s hs out (by omega)
  constructor
  · intro hne'
    exact Classical.byContradiction (fun hn => hne' (h.2 hn))
  · intro k hub
    obtain ⟨s', out', e, -⟩ := h.1 k
    rw [e] at hub
    cases hub

/-- C70: lists that `decode` may read can be intersected, whatever their order. -/
theorem C70_suffices_intersection_many {ps : List (List Nat × Nat)} (hv : ∀ p ∈ ps, Valid p.1)
    (h : ∀ p ∈ ps, BitmapsAligned p.1 p.2) : InterManyAligned ps := by
  intro us q ws e _ v _ _ hd
  have hq : q ∈ ps := by rw [e]; simp
  exact (C66_all_bitmaps (hv q hq) (h q hq) v).1 hd

/-- C70: lists, two of which have no slice in common, can be intersected wherever they are. -/
theorem C70_apart_intersection_many {ps : List (List Nat × Nat)} {p q : List Nat × Nat} (hp : p ∈ ps)
    (hq : q ∈ ps) (h : ∀ x ∈ p.1, ∀ y ∈ q.1, x / 65536 ≠ y / 65536) : InterManyAligned ps := by
  intro us r ws _ _ v _ hall
  obtain ⟨x, hx, ex⟩ := hall p hp
  obtain ⟨y, hy, ey⟩ := hall q hq
  exact absurd (ex.trans ey.symm) (h x hx y hy)

/-- C70: as soon as the lists before have nothing in common, the bitmaps of a list are not looked at. -/
theorem C70_stops {us ws : List (List Nat × Nat)} (h0 : ∀ v, ¬ ∀ u ∈ us, v ∈ u.1)
    (h : InterManyAligned us) : InterManyAligned (us ++ ws) := by
  intro us' q ws' e hus v hu hall
  by_cases hl : us'.length < us.length
  · have hpre : us = us' ++ us.drop us'.length := by
      have h1 := congrArg (List.take us'.length) e
      rw [List.take_append_of_le_length (by omega), List.take_left] at h1
      rw [← h1, List.length_take, Nat.min_eq_left (by omega), List.take_append_drop]
    obtain ⟨r, rs, er⟩ : ∃ r rs, us.drop us'.length = r :: rs := by
      cases hd : us.drop us'.length with
      | nil =>
        have := congrArg List.length hd
        rw [List.length_drop, List.length_nil] at this
        omega
      | cons r rs => exact ⟨r, rs, rfl⟩
    rw [er] at hpre
    have hrq : r = q := by
      have h1 := congrArg (fun L => L[us'.length]?) e
      rw [hpre] at h1
      simp at h1
      exact h1
    subst hrq
    exact h us' r rs hpre hus v hu (fun w hw => hall w (List.mem_append_left _ hw))
  · exfalso
    refine h0 v (fun u hu' => hu u ?_)
    have h1 := congrArg (List.take us'.length) e
    rw [List.take_left] at h1
    rw [← h1, List.take_append]
    exact List.mem_append_left _ (by rw [List.take_of_length_le (by omega)]; exact hu')

/-- C70: more than 32 slices.  Two lists, the first shorter; the 33rd slice of the second is not after the
first slice of the first.  If the second is not at an address that is 2 modulo 4, the call is undefined: the
search reads a 32-bit skip pointer that is not aligned. -/
theorem C70_intersection_many_search (hsort : SortOk sort) {p q : Placed} {rest : List Placed}
    (hv : ∀ r ∈ p :: q :: rest, Valid r.xs)
    (hps : ∀ r ∈ p :: q :: rest, StoredAt dbg' r.xs pad m r.a r.bytes r.s)
    (hord : (p :: q :: rest).Pairwise (fun p q => p.xs.length < q.xs.length))
    {v : Nat} (hv0 : p.xs.head? = some v) (hpass : PassesGroup q.xs v) (hq : q.a % 4 ≠ 2)
    (s : IScratch) (out : List Nat) :
    intersectionManyAtA dbg sort m ((p :: q :: rest).map Placed.a) s out = .error .ub := by
  unfold intersectionManyAtA
  have hg := ofAddrA_all hps
  by_cases he : ∀ r ∈ p :: q :: rest, r.a % 2 = 0
  · rw [hg.1 he, ok_bind]
    obtain ⟨qs, hperm, hord', hsrt⟩ := sort_placed hsort hv hps
    obtain rfl := sorted_unique hperm hord' hord
    have hsrt' : sort (fun r => ((((p :: q :: rest).map (fun p => (p.s, p.xs.length))).find?
        (fun p => p.1 = r)).map Prod.snd).getD 0) ((p :: q :: rest).map Placed.s)
        = (p :: q :: rest).map Placed.s := hsrt
    unfold intersectionA
    rw [keysA hv hps he, ok_bind]
    simp only [hsrt']
    have hp1 := hps p (by simp)
    have hq1 := hps q (by simp)
    have vp := hv p (by simp)
    have vq := hv q (by simp)
    have ep := he p (by simp)
    have eq' := he q (by simp)
    have hpid : p.s.begin.id m = .ok (v / 65536) := by
      have hit := (hp1.put vp).begin
      cases hcs : chunksOf p.xs with
      | nil =>
        have h1 := seqElems_chunksOf vp
        rw [hcs] at h1
        exact absurd h1.symm vp.1
      | cons c cs =>
        have hcid : c.id = v / 65536 := by
          have hmem : v ∈ p.xs := List.mem_of_head? hv0
          have hw : ChunksWF (c :: cs) := by rw [← hcs]; exact chunksOf_wf vp.2.1
          have h1 : v / 65536 ∈ (c :: cs).map Chk.id := by
            rw [← hcs]; exact (mem_chunk_ids vp).mpr ⟨v, hmem, rfl⟩
          have h2 : ∃ y ∈ p.xs, y / 65536 = c.id := (mem_chunk_ids vp).mp (by rw [hcs]; simp)
          obtain ⟨y, hy, hye⟩ := h2
          obtain ⟨d, hd, hde⟩ := List.mem_map.mp h1
          have hle : c.id ≤ v / 65536 := by
            rw [← hde]
            exact hw.ge_head d hd
          have hvy : v ≤ y := by
            cases hxs : p.xs with
            | nil => rw [hxs] at hv0; cases hv0
            | cons z zs =>
              rw [hxs] at hv0 hy
              cases hv0
              have hs := vp.2.1
              rw [hxs] at hs
              rcases List.mem_cons.mp hy with rfl | hy
              · exact Nat.le_refl _
              · exact Nat.le_of_lt ((List.pairwise_cons.mp hs).1 y hy)
          have := Nat.div_le_div_right (c := 65536) hvy
          omega
        rw [hcs] at hit
        rw [hit.body.id, hcid]
    have hjump := It.skip_to_value_gated (lb := v / 65536) (hq1.put vq).begin (hq1.put vq).ptrs
      (hq1.header_even eq')
    have hub : q.s.begin.skip_to_valueA m (v / 65536) = .error .ub := by
      refine hjump.2 (fun k => ?_)
      have hj : Jumps (v / 65536) (chunksOf q.xs) := (jumps_iff _ _).mpr hpass
      have h1 := k hj
      have h2 := hq1.pointers_eq
      have h3 : q.s.begin.pointers = q.s.pointers := rfl
      omega
    have hlt : v / 65536 < 65536 := by
      have := vp.2.2 v (List.mem_of_head? hv0)
      omega
    have hfor : ∀ f, candidate_forA m (f + 1) (((p :: q :: rest).map Placed.s).map SSeq.begin)
        (v / 65536) 1 = .error .ub := by
      intro f
      have hr : rdIt (((p :: q :: rest).map Placed.s).map SSeq.begin) 1 = .ok q.s.begin := rfl
      unfold candidate_forA
      rw [if_pos (by simp), hr, ok_bind, hub]
      rfl
    have hid : p.s.begin.idA m = .ok (v / 65536) := by
      rw [It.idA_eq (hp1.header_even ep)]; exact hpid
    have h0 : rdIt (((p :: q :: rest).map Placed.s).map SSeq.begin) 0 = .ok p.s.begin := rfl
    have hwhile : ∀ f, candidate_whileA m (f + 1) (((p :: q :: rest).map Placed.s).map SSeq.begin)
        (v / 65536) 1 s.headers 0 = .error .ub := by
      intro f
      unfold candidate_whileA
      rw [if_pos hlt, hfor]
      rfl
    have hfuel : ∃ f, (p.s.begin.end_ + 1) * 65537 = f + 1 := ⟨(p.s.begin.end_ + 1) * 65537 - 1, by omega⟩
    obtain ⟨f, hf⟩ := hfuel
    unfold intersection_sortedA
    simp only [h0, ok_bind, hid, hf, hwhile]
    rfl
  · rw [hg.2 he]; rfl

/-- C70: lists without a slice that is stored as a bitmap can be intersected at any addresses: the bitmaps
of blocks are copied byte by byte. -/
theorem C70_no_bitmap_slices {ps : List (List Nat × Nat)} (h : ∀ p ∈ ps, denseSlices p.1 = []) :
    InterManyAligned ps := by
  intro us q ws e _ v _ _ hd
  rw [h q (by rw [e]; simp)] at hd
  cases hd

/-- C70: of a list whose first slice is a bitmap, has a value in common with all lists before it, and is a
slice of all lists, the address must be 6 modulo 8. -/
theorem C70_first_bitmap_many {us ws : List (List Nat × Nat)} {q : List Nat × Nat} (hus : us ≠ []) {v : Nat}
    (hu : ∀ u ∈ us, v ∈ u.1) (hall : ∀ w ∈ us ++ q :: ws, ∃ y ∈ w.1, y / 65536 = v / 65536)
    (hd : v / 65536 ∈ denseSlices q.1) (hf : ∀ j ∈ slicesOf q.1, v / 65536 ≤ j)
    (h : InterManyAligned (us ++ q :: ws)) : q.2 % 8 = 6 := by
  have := h us q ws rfl hus v hu hall hd
  have h0 : (slicesOf q.1).filter (fun j => decide (j < v / 65536)) = [] := by
    rw [List.filter_eq_nil_iff]
    intro j hj
    have := hf j hj
    simp; omega
  unfold sliceStart at this
  rw [h0] at this
  simp only [List.map_nil, List.sum_nil] at this
  omega

/-- C70: two copies of the list that `pairwise_intersection` can read at no address (`C70_nowhere`): the
many-way `intersection` reads them at all even addresses. -/
theorem C70_many_where_pair_not (hsort : SortOk sort) {p q : Placed} (hp : p.xs = neverAligned)
    (hq : q.xs = neverAligned) (hsp : StoredAt dbg' p.xs 31 m p.a p.bytes p.s)
    (hsq : StoredAt dbg' q.xs 31 m q.a q.bytes q.s) (s : IScratch) (hs : s.Ok) (out : List Nat)
    (hcap : neverAligned.length ≤ out.length) :
    intersectionManyAtA dbg sort m [p.a, q.a] s out ≠ .error .ub ↔ p.a % 2 = 0 ∧ q.a % 2 = 0 := by
  have hone : slicesOf neverAligned = [0] := by
    apply sorted_ext (slicesOf_sorted _) (by decide)
    intro i
    rw [mem_slicesOf, List.mem_singleton]
    constructor
    · rintro ⟨-, x, hx, rfl⟩
      have : ∀ x ∈ neverAligned, x / 65536 = 0 := by decide +kernel
      exact this x hx
    · rintro rfl
      exact ⟨by decide, 0, by decide +kernel, by decide⟩
  have hnd : denseSlices neverAligned = [] := by
    unfold denseSlices
    rw [hone]
    decide +kernel
  have hmem : ∀ r ∈ [p, q], r.xs = neverAligned ∧ StoredAt dbg' r.xs 31 m r.a r.bytes r.s := by
    intro r hr
    simp only [List.mem_cons, List.not_mem_nil, or_false] at hr
    rcases hr with rfl | rfl
    · exact ⟨hp, hsp⟩
    · exact ⟨hq, hsq⟩
  obtain ⟨qs, h1, -, h3⟩ := C70_intersection_many (dbg := dbg) (ps := [p, q]) hsort
    (fun r hr => by rw [(hmem r hr).1]; exact neverAligned_valid) (fun r hr => (hmem r hr).2) (by simp)
    (fun r hr => by rw [(hmem r hr).1, hone]; exact Or.inl (by simp))
  have hZ : Enumerates neverAligned (fun v => ∀ r ∈ [p, q], v ∈ r.xs) := by
    refine ⟨neverAligned_valid.2.1, fun v => ⟨fun h r hr => by rw [(hmem r hr).1]; exact h, fun h => ?_⟩⟩
    rw [← hp]
    exact h p (by simp)
  have h := h3 _ hZ s hs out hcap
  have he : (∀ r ∈ [p, q], r.a % 2 = 0) ↔ p.a % 2 = 0 ∧ q.a % 2 = 0 := by simp
  rw [he] at h
  constructor
  · intro hne
    exact Classical.byContradiction (fun hn => hne (h.2 (fun k => hn k.1)))
  · intro k hub
    obtain ⟨s', out', e, -⟩ := h.1 ⟨k, C70_no_bitmap_slices (by
      intro r hr
      obtain ⟨r', hr', rfl⟩ := List.mem_map.mp hr
      simp only
      rw [(hmem r' (h1.mem_iff.mp hr')).1, hnd])⟩
    have hub' : intersectionManyAtA dbg sort m ([p, q].map Placed.a) s out = .error .ub := hub
    rw [e] at hub'
    cases hub'

end

/-! ## Non-trivial cases -/

-- three lists of different lengths in the order of their lengths, each somewhere in memory: the condition
-- is decided by the addresses alone
example : ∃ m, ∃ ps : List Placed, ps.map Placed.xs = [[5, 70000], [3, 5, 300, 70000], List.range 31] ∧
    (intersectionManyAtA true stdSort m (ps.map Placed.a) IScratch.init (List.replicate 31 0) ≠ .error .ub ↔
      (∀ p ∈ ps, p.a % 2 = 0) ∧ InterManyAligned (ps.map (fun p => (p.xs, p.a)))) := by
  have hv : ∀ xs ∈ [[5, 70000], [3, 5, 300, 70000], List.range 31], Valid xs := by
    intro xs hxs
    simp only [List.mem_cons, List.not_mem_nil, or_false] at hxs
    rcases hxs with rfl | rfl | rfl <;> exact ⟨by decide, by decide, by decide⟩
  obtain ⟨m, ps, hps, hst, -⟩ := stored_apart true 31 _ hv
  have hmem : ∀ p ∈ ps, p.xs ∈ [[5, 70000], [3, 5, 300, 70000], List.range 31] := fun p hp => by
    rw [← hps]; exact List.mem_map_of_mem hp
  obtain ⟨p, hp⟩ : ∃ p, p ∈ ps := by
    cases ps with
    | nil => cases hps
    | cons p ps => exact ⟨p, List.mem_cons_self⟩
  have hlen : ∀ p ∈ ps, p.xs.length ≤ 31 ∧ (slicesOf p.xs).length ≤ 32 := by
    intro p hp
    have hl : p.xs.length ≤ 31 := by
      have := hmem p hp
      simp only [List.mem_cons, List.not_mem_nil, or_false] at this
      rcases this with h | h | h <;> rw [h] <;> decide
    refine ⟨hl, ?_⟩
    have h1 : (slicesOf p.xs).length ≤ (p.xs.map (· / 65536)).length := by
      refine List.Nodup.length_le_of_subset ((slicesOf_sorted _).imp (fun h => Nat.ne_of_lt h)) ?_
      intro i hi
      obtain ⟨-, x, hx, rfl⟩ := mem_slicesOf.mp hi
      exact List.mem_map_of_mem hx
    rw [List.length_map] at h1
    omega
  refine ⟨m, ps, hps, C70_intersection_many_iff stdSort_ok (fun p hp => hv _ (hmem p hp)) hst ?_
    (fun p hp => Or.inl (hlen p hp).2) hp _ IScratch.init_ok _ (by
      rw [List.length_replicate]; exact (hlen p hp).1)⟩
  have : (ps.map Placed.xs).Pairwise (fun xs ys => xs.length < ys.length) := by rw [hps]; decide
  rw [List.pairwise_map] at this
  exact this

-- the condition for two copies of a list of one slice that is stored as a bitmap (`0, …, 39999` is one, see
-- `AlignedSets.lean`): the place of the first does not matter
example (a b : Nat) (xs : List Nat) (h0 : 0 ∈ xs) (hs : slicesOf xs = [0]) (hd : denseSlices xs = [0]) :
    InterManyAligned [(xs, a), (xs, b)] ↔ b % 8 = 6 := by
  constructor
  · intro h
    refine C70_first_bitmap_many (us := [(xs, a)]) (ws := []) (q := (xs, b))
      (by simp) (v := 0) (fun u hu => ?_) (fun w hw => ?_) (by simp only [hd]; simp) (fun j _ => Nat.zero_le j) h
    · rw [List.mem_singleton.mp hu]; exact h0
    · simp only [List.cons_append, List.nil_append, List.mem_cons, List.not_mem_nil, or_false] at hw
      rcases hw with rfl | rfl <;> exact ⟨0, h0, rfl⟩
  · intro hb us q ws e hus v hu hall hdv
    obtain ⟨u, us, rfl⟩ : ∃ u t, us = u :: t := by
      cases us with
      | nil => exact absurd rfl hus
      | cons u t => exact ⟨u, t, rfl⟩
    have hq : q = (xs, b) := by
      have e := (List.cons.inj e).2
      cases us with
      | nil => exact (List.cons.inj e).1.symm
      | cons u t =>
        have h1 := congrArg List.length e
        simp at h1
    subst hq
    simp only [hd, List.mem_singleton] at hdv
    simp only [hdv]
    unfold sliceStart
    rw [hs]
    have hf : ([0] : List Nat).filter (fun j => decide (j < 0)) = [] := rfl
    rw [hf]
    simp only [List.map_nil, List.sum_nil, List.length_singleton]
    omega

-- a list of one value and one of 40 slices: the search jumps over a group of 32 slices
example : PassesGroup ((List.range 40).map (· * 65536)) (35 * 65536) ∧
    ([35 * 65536] : List Nat).head? = some (35 * 65536) ∧
    ([35 * 65536] : List Nat).length < ((List.range 40).map (· * 65536)).length := by
  have h : slicesOf ((List.range 40).map (· * 65536)) = List.range 40 := by
    apply sorted_ext (slicesOf_sorted _) List.pairwise_lt_range
    intro i
    rw [mem_slicesOf, List.mem_range]
    constructor
    · rintro ⟨-, x, hx, rfl⟩
      obtain ⟨k, hk, rfl⟩ := List.mem_map.mp hx
      have := List.mem_range.mp hk
      omega
    · intro hi
      exact ⟨by omega, i * 65536, List.mem_map.mpr ⟨i, List.mem_range.mpr hi, rfl⟩, by omega⟩
  refine ⟨?_, rfl, by decide⟩
  unfold PassesGroup
  rw [h]
  exact ⟨32, by decide, by decide⟩

example : ∃ m, ∃ p q : Placed, p.xs = [35 * 65536] ∧ q.xs = (List.range 40).map (· * 65536) ∧
    ∀ r ∈ [p, q], Valid r.xs ∧ StoredAt true r.xs 31 m r.a r.bytes r.s := by
  have hv : ∀ xs ∈ [[35 * 65536], (List.range 40).map (· * 65536)], Valid xs := by
    intro xs hxs
    simp only [List.mem_cons, List.not_mem_nil, or_false] at hxs
    rcases hxs with rfl | rfl <;> exact ⟨by decide, by decide, by decide⟩
  obtain ⟨m, ps, hps, hst, -⟩ := stored_apart true 31 _ hv
  obtain ⟨p, l1, rfl, hp, h1⟩ := List.map_eq_cons_iff.mp hps
  obtain ⟨q, l2, rfl, hq, h2⟩ := List.map_eq_cons_iff.mp h1
  obtain rfl := List.map_eq_nil_iff.mp h2
  exact ⟨m, p, q, hp, hq, fun r hr => ⟨hv _ (by rw [← hps]; exact List.mem_map_of_mem hr), hst r hr⟩⟩

-- the lists before have no value in common: the third may be anywhere
example (a b c : Nat) (xs : List Nat) : InterManyAligned ([([3], a), ([5], b)] ++ [(xs, c)]) :=
  C70_stops (fun v h => by
    have h1 := h ([3], a) (by simp)
    have h2 := h ([5], b) (by simp)
    simp only [List.mem_singleton] at h1 h2
    omega)
    (by
      intro us q ws e hus v hu hall hd
      have hq : q ∈ [([3], a), ([5], b)] := by rw [e]; simp
      have hno : denseSlices q.1 = [] := by
        simp only [List.mem_cons, List.not_mem_nil, or_false] at hq
        have hone : ∀ y, y < 65536 → slicesOf [y] = [0] := by
          intro y hy
          apply sorted_ext (slicesOf_sorted _) (by decide)
          intro i
          rw [mem_slicesOf, List.mem_singleton]
          constructor
          · rintro ⟨-, x, hx, rfl⟩
            rw [List.mem_singleton.mp hx]
            omega
          · rintro rfl
            exact ⟨by decide, y, List.mem_singleton.mpr rfl, by omega⟩
        have h3 : denseSlices [3] = [] := by
          unfold denseSlices; rw [hone 3 (by decide)]; decide +kernel
        have h5 : denseSlices [5] = [] := by
          unfold denseSlices; rw [hone 5 (by decide)]; decide +kernel
        rcases hq with rfl | rfl
        · exact h3
        · exact h5
      rw [hno] at hd
      cases hd)

end Sliced
