import Verif.Proof.AlignedUnion
import Verif.Proof.UnionMany
/-! # union_many with checked alignment: the same result, or undefined -/
namespace Sliced

/-- if the chunk is a bitmap, it is at a multiple of 8 -/
def denseAligned (d : Nat) : Body → Prop
  | .dense _ => d % 8 = 0
  | _ => True

theorem or_words_loop_aligned {m : Mem} {p n i : Nat} {b o : List Nat} (hn : 0 < n)
    (h : or_words_loop (memWords m p) n i b = .ok o) :
    Gated (p % 8 = 0) (or_words_loop (memWordsA m p) n i b) (.ok o) := by
  constructor
  · intro hp
    rw [memWordsA_aligned hp]; exact h
  · intro hp
    obtain ⟨n, rfl⟩ : ∃ k, n = k + 1 := ⟨n - 1, by omega⟩
    unfold or_words_loop
    rw [memWordsA_misaligned hp]
    rfl

theorem uncompress_chunkA_eq {dbg : Bool} {m : Mem} {it : It} (hh : it.header % 2 = 0)
    (out : List Nat) (p : Nat) : uncompress_chunkA dbg m it out p = uncompress_chunk dbg m it out p := by
  unfold uncompress_chunkA uncompress_chunk
  rw [It.typeA_eq hh, It.blocksA_eq hh, It.cardinalityA_eq hh]

theorem uncompress_chunk_and_merge_aligned {dbg : Bool} {m : Mem} {it : It} {c : Chk} {cs : List Chk}
    {tmp bitmap : List Nat} {o : List Nat × List Nat} (hh : it.header % 2 = 0)
    (hi : ItOn 0 m it (c :: cs)) (h : uncompress_chunk_and_merge dbg m it tmp bitmap = .ok o) :
    Gated (denseAligned it.data c.body) (uncompress_chunk_and_mergeA dbg m it tmp bitmap) (.ok o) := by
  unfold uncompress_chunk_and_merge at h
  unfold uncompress_chunk_and_mergeA
  rw [It.typeA_eq hh, It.blocksA_eq hh]
  cases eb : c.body with
  | full =>
    rw [hi.type_full eb] at h ⊢
    exact Gated.of_true trivial (by simpa [type_sparse, type_dense, type_full] using h)
  | dense vs =>
    rw [hi.type_dense eb] at h ⊢
    simp only [ok_bind, type_sparse, type_dense] at h ⊢
    rw [if_neg (by decide), if_pos trivial] at h ⊢
    exact (Gated.step (Q := True) h (fun _ e => or_words_loop_aligned (by decide) e)
      (fun _ _ e => Gated.same e)).iff (and_iff_left trivial)
  | sparse bs =>
    rw [hi.type_sparse eb] at h ⊢
    exact Gated.of_true trivial (by simpa [type_sparse, type_dense, type_full] using h)

/-- `its` are iterators with the chunks of `qs` ahead, whose data are at the places given there -/
def ItsPut (m : Mem) : List It → List ((Nat → Nat) × List Chk) → Prop
  | [], [] => True
  | it :: its, q :: qs =>
    (it.header % 2 = 0 ∧ ItOnP (ChkPut m q.1) m it q.2) ∧ ItsPut m its qs
  | _, _ => False

theorem ItsPut.on {m : Mem} {its : List It} {qs : List ((Nat → Nat) × List Chk)} (h : ItsPut m its qs) :
    ItsOn 0 m its (qs.map Prod.snd) := by
  induction its generalizing qs with
  | nil =>
    cases qs with
    | nil => trivial
    | cons q qs => exact absurd h (by simp [ItsPut])
  | cons it its ih =>
    cases qs with
    | nil => exact absurd h (by simp [ItsPut])
    | cons q qs => exact ⟨h.1.2.body, ih h.2⟩

/-- the chunk in front has the id `h` and is a bitmap: then it is at a multiple of 8 -/
def headGate (h : Nat) (q : (Nat → Nat) × List Chk) : Prop :=
  ∀ c, q.2.head? = some c → c.id = h → denseAligned (q.1 h) c.body

theorem headGate_other {h : Nat} {q : (Nat → Nat) × List Chk} (hh : h < 65536)
    (hid : ¬ headId q.2 = h) : headGate h q := by
  intro c hc hcid
  obtain ⟨P, cs⟩ := q
  cases cs with
  | nil => cases hc
  | cons d cs =>
    cases Option.some.inj hc
    exact absurd hcid hid

theorem merge_loop_false_aligned {dbg : Bool} {m : Mem} {header : Nat} (hh : header < 65536)
    {its : List It} {qs : List ((Nat → Nat) × List Chk)} {s : MScratch} {o : Bool × MScratch}
    (hi : ItsPut m its qs) (h : merge_loop dbg m header its false s = .ok o) :
    Gated (∀ q ∈ qs, headGate header q) (merge_loopA dbg m header its false s) (.ok o) := by
  induction its generalizing qs s with
  | nil =>
    cases qs with
    | nil => exact Gated.of_true (fun _ h => nomatch h) h
    | cons q qs => exact absurd hi (by simp [ItsPut])
  | cons it its ih =>
    cases qs with
    | nil => exact absurd hi (by simp [ItsPut])
    | cons q qs =>
      obtain ⟨⟨he, h1⟩, h2⟩ := hi
      have hid' := h1.body.id'
      unfold merge_loop at h
      unfold merge_loopA
      rw [It.idA_eq he]
      rw [hid', ok_bind] at h ⊢
      refine Gated.iff ?_ (List.forall_mem_cons.symm)
      by_cases hid : headId q.2 = header
      · rw [if_pos hid, if_neg (by decide)] at h ⊢
        obtain ⟨P, cs⟩ := q
        cases cs with
        | nil => simp [headId] at hid; omega
        | cons c cs =>
          have hcid : c.id = header := hid
          refine Gated.iff (Gated.step (Q := ∀ q ∈ qs, headGate header q) h
            (fun _ e => uncompress_chunk_and_merge_aligned he h1.body e) ?_)
            (and_congr_left fun _ => ?_)
          · rintro ⟨t, b⟩ - h
            exact ih h2 h
          · have hd : it.data = P c.id := h1.at_.2.1.2
            rw [hd, hcid]
            exact ⟨fun h d hd' _ => by cases Option.some.inj hd'; exact h, fun h => h c rfl hcid⟩
      · rw [if_neg hid] at h ⊢
        exact (ih h2 h).iff (and_iff_right (headGate_other hh hid)).symm

theorem merge_loop_aligned {dbg : Bool} {m : Mem} {header : Nat} (hh : header < 65536)
    {its : List It} {qs : List ((Nat → Nat) × List Chk)} {s : MScratch} {o : Bool × MScratch}
    (hi : ItsPut m its qs) (h : merge_loop dbg m header its true s = .ok o) :
    Gated (qs.Pairwise (fun p q => headId p.2 = header → headGate header q))
      (merge_loopA dbg m header its true s) (.ok o) := by
  induction its generalizing qs s with
  | nil =>
    cases qs with
    | nil => exact Gated.of_true List.Pairwise.nil h
    | cons q qs => exact absurd hi (by simp [ItsPut])
  | cons it its ih =>
    cases qs with
    | nil => exact absurd hi (by simp [ItsPut])
    | cons q qs =>
      obtain ⟨⟨he, h1⟩, h2⟩ := hi
      have hid' := h1.body.id'
      unfold merge_loop at h
      unfold merge_loopA
      rw [It.idA_eq he, uncompress_chunkA_eq he]
      rw [hid', ok_bind] at h ⊢
      refine Gated.iff ?_ (List.pairwise_cons.symm)
      by_cases hid : headId q.2 = header
      · rw [if_pos hid, if_pos rfl] at h ⊢
        refine Gated.iff (Gated.step (P := True) (Q := ∀ q ∈ qs, headGate header q) h
          (fun _ e => Gated.same e) ?_) ?_
        · rintro ⟨k, b⟩ - h
          exact merge_loop_false_aligned hh h2 h
        · constructor
          · intro t
            refine ⟨fun q' hq' _ => t.2 q' hq', ?_⟩
            exact List.Pairwise.imp_of_mem (R := fun _ _ => True) (fun _ hb _ _ => t.2 _ hb)
              (List.pairwise_of_forall (fun _ _ => trivial))
          · exact fun t => ⟨trivial, fun q' hq' => t.1 q' hq' hid⟩
      · rw [if_neg hid] at h ⊢
        exact (ih h2 h).iff (and_iff_right (fun _ _ h => absurd h hid)).symm

/-- the rest of the chunks after a round -/
def dropGate (h : Nat) (q : (Nat → Nat) × List Chk) : (Nat → Nat) × List Chk := (q.1, dropHead h q.2)

theorem step_loop_aligned {m : Mem} {header : Nat} (hh : header < 65536)
    {its : List It} {qs : List ((Nat → Nat) × List Chk)} {next : Nat} {o : List It × Nat}
    (hi : ItsPut m its qs) (h : step_loop m header its next = .ok o) :
    step_loopA m header its next = .ok o ∧ ItsPut m o.1 (qs.map (dropGate header)) := by
  induction its generalizing qs next o with
  | nil =>
    cases qs with
    | nil => cases h; exact ⟨rfl, trivial⟩
    | cons q qs => exact absurd hi (by simp [ItsPut])
  | cons it its ih =>
    cases qs with
    | nil => exact absurd hi (by simp [ItsPut])
    | cons q qs =>
      obtain ⟨⟨he, h1⟩, h2⟩ := hi
      have hid' := h1.body.id'
      unfold step_loop at h
      unfold step_loopA
      rw [It.idA_eq he, It.nextA_eq he]
      rw [hid', ok_bind] at h ⊢
      have step : ∃ it', (if headId q.2 = header then it.next m else pure it) = .ok it' ∧
          it'.header % 2 = 0 ∧ ItOnP (ChkPut m q.1) m it' (dropHead header q.2) := by
        obtain ⟨P, cs⟩ := q
        cases cs with
        | nil => exact ⟨it, by rw [if_neg (by simp [headId]; omega)]; rfl, he, h1⟩
        | cons c cs =>
          by_cases hid : c.id = header
          · obtain ⟨it', e, h', -⟩ := h1.next
            exact ⟨it', (if_pos hid).trans e, It.next_even he e, by
              simp only [dropHead, if_pos hid]; exact h'⟩
          · exact ⟨it, (if_neg hid).trans rfl, he, by simp only [dropHead, if_neg hid]; exact h1⟩
      obtain ⟨it', e1, he', h1'⟩ := step
      have fin : ∀ {o : List It × Nat}, (do
          let j ← it'.id m
          let (its, next) ← step_loop m header its (if j < next then j else next)
          return (it' :: its, next)) = Except.ok (ε := Err) o → (do
          let j ← it'.idA m
          let (its, next) ← step_loopA m header its (if j < next then j else next)
          return (it' :: its, next)) = Except.ok (ε := Err) o ∧
          ItsPut m o.1 ((q :: qs).map (dropGate header)) := by
        intro o h
        rw [It.idA_eq he']
        obtain ⟨j, e2, h⟩ := bind_ok h
        obtain ⟨⟨its', next'⟩, e3, h⟩ := bind_ok h
        cases h
        obtain ⟨k1, k2⟩ := ih h2 e3
        refine ⟨?_, ⟨he', h1'⟩, k2⟩
        simp only [e2, ok_bind, k1, pure_ok]
      by_cases hid : headId q.2 = header
      · simp only [if_pos hid] at h e1 ⊢
        simp only [e1, ok_bind] at h ⊢
        exact fin h
      · simp only [if_neg hid] at h e1 ⊢
        cases e1
        exact fin h

/-- every bitmap of a chunk whose slice an earlier list has too is at a multiple of 8 -/
def ManyGate (qs : List ((Nat → Nat) × List Chk)) : Prop :=
  qs.Pairwise (fun p q => ∀ c ∈ p.2, ∀ d ∈ q.2, c.id = d.id → denseAligned (q.1 d.id) d.body)

theorem mem_dropHead {h : Nat} {c : Chk} {cs : List Chk} (w : ChunksWF cs)
    : c ∈ dropHead h cs ↔ c ∈ cs ∧ (c.id = h → cs.head? ≠ some c) := by
  cases cs with
  | nil => simp [dropHead]
  | cons d cs =>
    simp only [dropHead]
    by_cases hd : d.id = h
    · rw [if_pos hd]
      constructor
      · intro hc
        refine ⟨List.mem_cons_of_mem _ hc, fun _ he => ?_⟩
        have := w.head_lt c hc
        cases Option.some.inj he
        omega
      · rintro ⟨hc, hne⟩
        rcases List.mem_cons.mp hc with rfl | hc
        · exact absurd rfl (hne hd)
        · exact hc
    · rw [if_neg hd]
      refine ⟨fun hc => ⟨hc, fun hid he => ?_⟩, fun hc => hc.1⟩
      cases Option.some.inj he
      exact hd hid

theorem head_of_id {h : Nat} {c : Chk} {cs : List Chk} (w : ChunksWF cs) (hlo : h ≤ headId cs)
    (hc : c ∈ cs) (hid : c.id = h) : cs.head? = some c := by
  cases cs with
  | nil => cases hc
  | cons d cs =>
    rcases List.mem_cons.mp hc with rfl | hc
    · rfl
    · have := w.head_lt c hc
      have : h ≤ d.id := hlo
      omega

theorem headId_head {c : Chk} {cs : List Chk} (h : cs.head? = some c) : headId cs = c.id := by
  cases cs with
  | nil => cases h
  | cons d cs => cases Option.some.inj h; rfl

theorem manyGate_split {header : Nat} {qs : List ((Nat → Nat) × List Chk)} (hh : header < 65536)
    (hw : ∀ q ∈ qs, ChunksWF q.2) (hlo : ∀ q ∈ qs, header ≤ headId q.2) :
    (qs.Pairwise (fun p q => headId p.2 = header → headGate header q) ∧
      ManyGate (qs.map (dropGate header))) ↔ ManyGate qs := by
  unfold ManyGate
  rw [List.pairwise_map, ← List.pairwise_and_iff]
  refine List.Pairwise.iff_of_mem (fun {p q} hp hq => ?_)
  have wp := hw p hp
  have wq := hw q hq
  simp only [dropGate]
  constructor
  · rintro ⟨k1, k2⟩ c hc d hd hcd
    by_cases hid : c.id = header
    · have h1 := head_of_id wp (hlo p hp) hc hid
      have h2 := head_of_id wq (hlo q hq) hd (hcd.symm.trans hid)
      have := k1 ((headId_head h1).trans hid) d h2 (hcd.symm.trans hid)
      rw [← hcd, hid]
      exact this
    · exact k2 c ((mem_dropHead wp).2 ⟨hc, fun h => absurd h hid⟩) d
        ((mem_dropHead wq).2 ⟨hd, fun h => absurd (hcd.trans h) hid⟩) hcd
  · intro k
    constructor
    · intro hid d hd hdid
      obtain ⟨P, cs⟩ := p
      cases cs with
      | nil => simp [headId] at hid; omega
      | cons c cs =>
        have hcid : c.id = header := hid
        have := k c List.mem_cons_self d (List.mem_of_head? hd) (hcid.trans hdid.symm)
        rw [hdid] at this
        exact this
    · intro c hc d hd
      exact k c ((mem_dropHead wp).1 hc).1 d ((mem_dropHead wq).1 hd).1

theorem union_many_loop_aligned {dbg : Bool} {m : Mem} (f : Nat) {its : List It}
    {qs : List ((Nat → Nat) × List Chk)} {header out : Nat} {s : MScratch} {buf : List Nat}
    {o : Nat × MScratch × List Nat} (hi : ItsPut m its qs)
    (hmin : IsMin header 65536 (qs.map Prod.snd))
    (h : union_many_loop dbg m f its header s buf out = .ok o) :
    Gated (ManyGate qs) (union_many_loopA dbg m f its header s buf out) (.ok o) := by
  induction f generalizing its qs header out s buf with
  | zero => cases h
  | succ f ih =>
    unfold union_many_loop at h
    unfold union_many_loopA
    have hlo : ∀ q ∈ qs, header ≤ headId q.2 := fun q hq =>
      hmin.2.1 _ (List.mem_map_of_mem hq)
    have hw : ∀ q ∈ qs, ChunksWF q.2 := fun q hq => hi.on.wf _ (List.mem_map_of_mem hq)
    by_cases hh : header < 65536
    · rw [if_pos hh] at h ⊢
      refine Gated.iff (Gated.step (Q := ManyGate (qs.map (dropGate header))) h
        (fun _ e => merge_loop_aligned hh hi e) ?_) (manyGate_split hh hw hlo)
      rintro ⟨b, s1⟩ - h
      refine Gated.iff (Gated.step (P := True) (Q := ManyGate (qs.map (dropGate header))) h
        (fun _ e => Gated.same e) ?_) (and_iff_right trivial)
      rintro ⟨k, buf1⟩ - h
      obtain ⟨⟨its', next⟩, e3, h⟩ := bind_ok h
      obtain ⟨e4, hi'⟩ := step_loop_aligned hh hi e3
      simp only [e4, ok_bind]
      refine ih hi' ?_ h
      obtain ⟨its'', next'', e5, -, hm⟩ := step_loop_spec hh 65536 hi.on
      rw [e3] at e5
      cases e5
      simpa [List.map_map, Function.comp_def, dropGate] using hm
    · rw [if_neg hh] at h ⊢
      refine Gated.of_true ?_ h
      have hnil : ∀ q ∈ qs, q.2 = [] := by
        intro q hq
        have := hlo q hq
        have wq := hw q hq
        obtain ⟨P, cs⟩ := q
        cases cs with
        | nil => rfl
        | cons c cs =>
          have h1 := wq.head.1
          have : header ≤ c.id := this
          omega
      refine List.Pairwise.imp_of_mem (R := fun _ _ => True) (fun {p q} hp _ _ c hc => ?_)
        (List.pairwise_of_forall (fun _ _ => trivial))
      rw [hnil p hp] at hc
      cases hc

theorem min_idA_eq {m : Mem} {its : List It} {qs : List ((Nat → Nat) × List Chk)}
    (hi : ItsPut m its qs) : min_idA m its = min_id m its := by
  have hev : ∀ {its : List It} {qs : List ((Nat → Nat) × List Chk)}, ItsPut m its qs → ∀ best,
      its.foldlM (fun best it => do
        let j ← it.idA m
        return if j < best then j else best) best = its.foldlM (fun best it => do
        let j ← it.id m
        return if j < best then j else best) (best : Nat) := by
    intro its
    induction its with
    | nil => intro qs _ best; rfl
    | cons it its ih =>
      intro qs hi best
      cases qs with
      | nil => exact absurd hi (by simp [ItsPut])
      | cons q qs =>
        rw [List.foldlM_cons, List.foldlM_cons, It.idA_eq hi.1.1]
        congr 1
        funext b
        exact ih hi.2 b
  cases its with
  | nil => rfl
  | cons it its =>
    cases qs with
    | nil => exact absurd hi (by simp [ItsPut])
    | cons q qs =>
      show (it.idA m >>= _) = (it.id m >>= _)
      rw [It.idA_eq hi.1.1]
      congr 1
      funext b
      exact hev hi.2 b

theorem union_many_aligned {dbg : Bool} {m : Mem} {ss : List SSeq}
    {qs : List ((Nat → Nat) × List Chk)} {out : Nat} {s : MScratch} {buf : List Nat}
    {o : Nat × MScratch × List Nat} (hne : ss ≠ []) (hi : ItsPut m (ss.map SSeq.begin) qs)
    (h : union_many dbg m ss s buf out = .ok o) :
    Gated (ManyGate qs) (union_manyA dbg m ss s buf out) (.ok o) := by
  unfold union_many at h
  unfold union_manyA
  dsimp only at h ⊢
  obtain ⟨n, e1, hm⟩ := min_id_spec (by simpa using hne) hi.on
  rw [min_idA_eq hi]
  rw [e1, ok_bind] at h ⊢
  exact (Gated.step (Q := True) h (fun _ e => union_many_loop_aligned _ hi hm e)
    (fun _ _ e => Gated.same e)).iff (and_iff_left trivial)

end Sliced
