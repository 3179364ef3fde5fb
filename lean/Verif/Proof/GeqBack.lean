import Verif.Proof.GeqEnum
/-! # next_geq_enumerator.hpp, when the bounds go back -/
namespace Sliced

/-- The cached position inside the sparse chunk with blocks `bs` is in front of the blocks from `f` on. -/
def CacheAt (pad : Nat) (m : Mem) (bs : List Blk) (f : Nat) (e : GeqEnum) : Prop :=
  ∃ pre bs', bs = pre ++ bs' ∧ (∀ x ∈ blkElems pre, x < f) ∧ (∀ x ∈ blkElems bs', f ≤ x) ∧
    BlocksAt pad m e.begin_ e.data bs' ∧ e.begin_ + 2 * bs'.length = e.end_ ∧
    rd8 m e.begin_ = .ok e.id

theorem geq_max {f w : Nat} {a b : List Nat} (ha : ∀ x ∈ a, x < f) (hb : ∀ x ∈ b, f ≤ x) :
    geq (max w f) (a ++ b) = geq w b := by
  rw [geq_append, geq_none_of_lt (fun x hx => by have := ha x hx; omega), Option.none_or]
  unfold geq
  induction b with
  | nil => rfl
  | cons y b ih =>
    have hy := hb y List.mem_cons_self
    rw [List.find?_cons, List.find?_cons, ih (fun x hx => hb x (List.mem_cons_of_mem _ hx))]
    rw [show decide (max w f ≤ y) = decide (w ≤ y) from decide_eq_decide.mpr (by omega)]

theorem GeqEnum.sparse_tail_back {pad : Nat} {m : Mem} {e : GeqEnum} {w f : Nat} {bs : List Blk}
    (hw0 : BlocksWF bs) (hv : w < 65536) (hc : CacheAt pad m bs f e) :
    ∃ e', e.sparse_tail m w = .ok (e', (geq (max w f) (blkElems bs)).getD not_found) ∧
      e'.it = e.it ∧ e'.chunk_id = e.chunk_id ∧
      ∀ a, geq (max w f) (blkElems bs) = some a → CacheAt pad m bs (a / 256 * 256) e' := by
  obtain ⟨pre, bs', h1, h2, h3, h4, h5, h6⟩ := hc
  have hw1 : BlocksWF bs' := by rw [h1] at hw0; exact hw0.append_right
  obtain ⟨e', g1, g2, g3, g4, g5⟩ := GeqEnum.sparse_tail_spec hw1 hv
    (⟨[], bs', rfl, by simp, h4, h5, h6⟩ : GeqCache pad m bs' w e)
  have hg : geq (max w f) (blkElems bs) = geq w (blkElems bs') := by
    rw [h1, blkElems_append, geq_max h2 h3]
  rw [hg]
  refine ⟨e', g1, g2, g3, ?_⟩
  intro a ha
  obtain ⟨pre2, bs2, k1, k2, k3, k4, k5⟩ := g4
  have hid := g5 a ha
  have ham : a ∈ blkElems bs' := List.mem_of_find?_eq_some ha
  have haw : w ≤ a := by simpa using List.find?_some ha
  rw [k1, blkElems_append, List.mem_append] at ham
  have ham2 : a ∈ blkElems bs2 := by
    rcases ham with h | h
    · have := k2 a h; omega
    · exact h
  cases bs2 with
  | nil => cases ham2
  | cons b bs2 =>
    have hbid : b.id = a / 256 := by
      have := k3.1
      rw [k5] at this
      injection this with this
      rw [← this]
      exact hid
    have hsplit : bs = (pre ++ pre2) ++ b :: bs2 := by rw [h1, k1, List.append_assoc]
    have hwa : BlocksWF ((pre ++ pre2) ++ b :: bs2) := hsplit ▸ hw0
    have hwr := hwa.append_right
    refine ⟨pre ++ pre2, b :: bs2, hsplit, ?_, ?_, k3, k4, k5⟩
    · intro x hx
      obtain ⟨d, hd, e1, e2⟩ := (mem_blkElems hwa.append_left).mp hx
      have := (List.pairwise_append.mp hwa.1).2.2 d hd b (by simp)
      omega
    · intro x hx
      obtain ⟨d, hd, e1, e2⟩ := (mem_blkElems hwr).mp hx
      rcases List.mem_cons.mp hd with rfl | hd
      · omega
      · have := hwr.head_lt d hd; omega

theorem GeqEnum.sparse_case_back {dbg : Bool} {pad : Nat} {m : Mem} {e : GeqEnum} {w f : Nat} {c : Chk}
    {post : List Chk} {bs : List Blk} (hit : ItOn pad m e.it (c :: post)) (hb : c.body = .sparse bs)
    (hv : w < 65536) (hc : c.id = e.chunk_id → CacheAt pad m bs f e)
    (hn : c.id ≠ e.chunk_id → f = 0) :
    ∃ e', e.sparse_case dbg m w = .ok (e', (geq (max w f) (blkElems bs)).getD not_found) ∧
      e'.it = e.it ∧ e'.chunk_id = c.id ∧
      ∀ a, geq (max w f) (blkElems bs) = some a → CacheAt pad m bs (a / 256 * 256) e' := by
  have hbody : BodyAt _ _ _ _ := hit.at_.2.1
  have hbw := hit.wf.head.2
  rw [hb] at hbody hbw
  replace hbody : BlocksAt pad m e.it.data (e.it.data + 2 * bs.length) bs := hbody
  have hl1 := List.length_pos_iff.mpr hbw.1
  have hl2 := hbw.2.length_le
  rw [GeqEnum.sparse_case_eq, hit.id]
  simp only [ok_bind]
  by_cases hid : e.chunk_id = c.id
  · rw [if_neg (by simpa using hid)]
    obtain ⟨e', h1, h2, h3, h4⟩ := GeqEnum.sparse_tail_back hbw.2 hv (hc hid.symm)
    exact ⟨e', h1, h2, h3.trans hid, h4⟩
  · rw [if_pos hid, hit.blocks_sparse hb]
    obtain ⟨i, hi⟩ := hbody.rd8_head
    simp only [ok_bind]
    rw [cassert_of (by simp; omega)]
    simp only [ok_bind, hi]
    have hcache : CacheAt pad m bs f { e with
        begin_ := e.it.data, data := e.it.data + bs.length * 2,
        end_ := e.it.data + bs.length * 2, id := i, chunk_id := c.id } := by
      refine ⟨[], bs, rfl, by simp, ?_, ?_, ?_, hi⟩
      · rw [hn (fun h => hid h.symm)]; simp
      · rw [show e.it.data + bs.length * 2 = e.it.data + 2 * bs.length by omega]; exact hbody
      · simp only; omega
    obtain ⟨e', h1, h2, h3, h4⟩ := GeqEnum.sparse_tail_back hbw.2 hv hcache
    exact ⟨e', h1, h2, h3, h4⟩

/-- State of the enumerator between two calls: the iterator is at the first chunk from `C` on, the
cached block at `B`. -/
structure BackInv (pad : Nat) (m : Mem) (cs : List Chk) (C B : Nat) (e : GeqEnum) (cur : List Chk) :
    Prop where
  pre : ∃ p, cs = p ++ cur ∧ ∀ x ∈ seqElems p, x < C
  ids : ∀ c ∈ cur, C ≤ c.id * 65536
  slice : C % 65536 = 0
  le : C ≤ B
  near : B < C + 65536
  some_ : cur ≠ []
  it : ItOn pad m e.it cur
  cache : ∀ c ∈ cur, c.id = e.chunk_id → ∃ post bs, cur = c :: post ∧ c.id * 65536 = C ∧
    c.body = .sparse bs ∧ CacheAt pad m bs (B - C) e
  free : ∀ c post, cur = c :: post → c.id ≠ e.chunk_id → B = C

/-- the new state after answer `a` to bound `w` -/
def backC (a : Nat) : Nat := a / 65536 * 65536
def backB (sp : Nat → Bool) (B w a : Nat) : Nat :=
  if backC a < w ∧ sp (a / 65536) = true then a / 256 * 256 else max (backC a) B
/-- what the bound `w` is raised to -/
def backBound (C B w : Nat) : Nat := if w ≤ C then C else max w B

theorem BackInv.move {pad : Nat} {m : Mem} {cs : List Chk} {C B : Nat} {e : GeqEnum}
    {q post cur : List Chk} {c : Chk} {it : It} (h : BackInv pad m cs C B e cur)
    (hsplit : cur = q ++ c :: post) (hit : ItOn pad m it (c :: post)) :
    BackInv pad m cs (c.id * 65536) (max (c.id * 65536) B) { e with it := it } (c :: post) := by
  obtain ⟨p, hp, hlt⟩ := h.pre
  have hwc := h.it.wf
  have hcC := h.ids c (by rw [hsplit]; simp)
  have hs := h.slice
  have hle := h.le
  have hnear := h.near
  rw [hsplit] at hwc
  have hq : ∀ d ∈ q, d.id < c.id := fun d hd =>
    (List.pairwise_append.mp hwc.1).2.2 d hd c (by simp)
  have hqC : ∀ d ∈ q, C ≤ d.id * 65536 := fun d hd => h.ids d (by rw [hsplit]; simp [hd])
  refine ⟨⟨p ++ q, by rw [hp, hsplit, List.append_assoc], ?_⟩, ?_, by omega, by omega, ?_, by simp,
    hit, ?_, ?_⟩
  · intro x hx
    rw [seqElems_append', List.mem_append] at hx
    rcases hx with hx | hx
    · have := hlt x hx; omega
    · have hwq : ChunksWF q := ⟨(List.pairwise_append.mp hwc.1).1, fun d hd => hwc.2 d (by simp [hd])⟩
      obtain ⟨d, hd, hid, -⟩ := (mem_seqElems hwq).mp hx
      have := hq d hd
      omega
  · intro d hd
    rcases List.mem_cons.mp hd with rfl | hd
    · exact Nat.le_refl _
    · have := hit.wf.head_lt d hd; omega
  · omega
  · intro d hd hid
    obtain ⟨post', bs, h1, h2, h3, h4⟩ := h.cache d (by rw [hsplit]; simp at hd ⊢; exact Or.inr hd) hid
    have hqn : q = [] := by
      cases q with
      | nil => rfl
      | cons d' q =>
        rw [hsplit] at h1
        simp only [List.cons_append, List.cons.injEq] at h1
        obtain ⟨rfl, -⟩ := h1
        have := (List.pairwise_append.mp hwc.1).2.2 d' (by simp) d' hd
        omega
    subst hqn
    rw [hsplit, List.nil_append] at h1
    cases h1
    exact ⟨post, bs, rfl, rfl, h3, by
      rw [show max (c.id * 65536) B - c.id * 65536 = B - C by omega]; exact h4⟩
  · intro d post' hd hid
    cases hd
    cases q with
    | nil =>
      have := h.free c post hsplit hid
      omega
    | cons d' q =>
      have := hq d' (by simp)
      have := hqC d' (by simp)
      omega

theorem GeqEnum.next_geq_back {dbg : Bool} {pad : Nat} {m : Mem} {cs cur : List Chk} {C B w : Nat}
    {e : GeqEnum} {it : It} {sp : Nat → Bool} (h : BackInv pad m cs C B e cur)
    (hsp : ∀ c ∈ cs, sp c.id = true ↔ ∃ bs, c.body = .sparse bs)
    (hw : w < 4294967296)
    (es : e.it.skip_to_value m (w / 65536) = .ok it)
    (hit : ItOn pad m it (fromId (w / 65536) cur)) :
    (∃ e' a cur', e.next_geq dbg m w = .ok (e', a) ∧ geq (backBound C B w) (seqElems cs) = some a ∧
      BackInv pad m cs (backC a) (backB sp B w a) e' cur' ∧ ∀ c ∈ cur', w / 65536 ≤ c.id) ∨
    (∃ e', e.next_geq dbg m w = .ok (e', 4294967295) ∧
      geq (backBound C B w) (seqElems cs) = none ∧ ItOn pad m e'.it []) := by
  obtain ⟨p, hp, hplt⟩ := h.pre
  obtain ⟨q, hq, hqlt⟩ := fromId_prefix (w / 65536) cur
  have hs := h.slice
  have hle := h.le
  have hnear := h.near
  have hwcur := h.it.wf
  have hwq : ChunksWF q := by
    rw [hq] at hwcur
    exact ⟨(List.pairwise_append.mp hwcur.1).1, fun d hd => hwcur.2 d (by simp [hd])⟩
  have hqC : ∀ d ∈ q, C ≤ d.id * 65536 := fun d hd => h.ids d (by rw [hq]; simp [hd])
  -- everything in front of the iterator is below the raised bound
  have hbig : q ≠ [] → C + 65536 ≤ w := by
    intro hne
    obtain ⟨d, hd⟩ := List.exists_mem_of_ne_nil q hne
    have := hqC d hd
    have := hqlt d hd
    omega
  have hpq : ∀ x ∈ seqElems (p ++ q), x < backBound C B w := by
    intro x hx
    unfold backBound
    rw [seqElems_append', List.mem_append] at hx
    rcases hx with hx | hx
    · have := hplt x hx
      split <;> omega
    · obtain ⟨d, hd, hid, -⟩ := (mem_seqElems hwq).mp hx
      have := hqlt d hd
      have := hqC d hd
      rw [if_neg (by omega)]
      omega
  have hids : ∀ c ∈ fromId (w / 65536) cur, w / 65536 ≤ c.id := by
    rcases fromId_cases (w / 65536) cur with ⟨h1, -⟩ | ⟨pre, c, post, h1, h2, h3, h4⟩
    · rw [h1]; simp
    · rw [h2] at hit ⊢
      intro d hd
      rcases List.mem_cons.mp hd with rfl | hd
      · exact h4
      · have := hit.wf.head_lt d hd; omega
  have hnil : fromId (w / 65536) cur = [] → ¬ w = 0 := by
    intro hf hw0
    rw [hf, List.append_nil] at hq
    have := hbig (fun hqn => h.some_ (hq.trans hqn))
    omega
  generalize hcur1 : fromId (w / 65536) cur = cur1 at *
  have hg : geq (backBound C B w) (seqElems cs) = geq (backBound C B w) (seqElems cur1) := by
    rw [hp, hq, ← List.append_assoc, seqElems_append', geq_append, geq_none_of_lt hpq, Option.none_or]
  rw [hg]
  unfold GeqEnum.next_geq
  simp only [es, ok_bind]
  cases cur1 with
  | nil =>
    rw [hit.base_nil, hit.has_next_nil]
    simp only [ok_bind, if_neg (show ¬ (0 ≥ w) by have := hnil rfl; omega)]
    exact Or.inr ⟨_, rfl, rfl, hit⟩
  | cons c post =>
    have hcw : ChunksWF (c :: post) := hit.wf
    have hc := hcw.head
    have hcid := hc.1
    have hcge := hids c (by simp)
    have hcC := h.ids c (by rw [hq]; simp)
    have h1 := h.move hq hit
    have hspc := hsp c (by rw [hp, hq]; simp)
    rw [hit.base, hit.has_next]
    simp only [ok_bind, if_true]
    by_cases hb : c.id * 65536 ≥ w
    · -- the minimum of the chunk
      rw [if_pos hb]
      obtain ⟨x, hx⟩ := hc.head?_exists
      have hxb := hc.2.bound x (List.mem_of_head? hx)
      have hbound : backBound C B w ≤ c.id * 65536 := by
        unfold backBound
        split
        · exact hcC
        · cases q with
          | nil =>
            by_cases hid : c.id = e.chunk_id
            · obtain ⟨_, _, h5, h6, -⟩ := h.cache c (by rw [hq]; simp) hid
              omega
            · have := h.free c post hq hid
              omega
          | cons d q =>
            have := hbig (by simp)
            omega
      rw [chunk_min_spec hit hit.at_.2.1 hx, geq_head_of_le, seqElems_head? hx]
      · refine Or.inl ⟨_, _, c :: post, rfl, rfl, ?_, hids⟩
        have ha : (c.id * 65536 + x) / 65536 = c.id := by omega
        unfold backB backC
        rw [ha, if_neg (by omega)]
        exact h1
      · intro y hy
        obtain ⟨d, hd, hid, -⟩ := (mem_seqElems hcw).mp hy
        rcases List.mem_cons.mp hd with rfl | hd
        · omega
        · have := hcw.head_lt d hd; omega
    · rw [if_neg hb]
      have hceq : c.id = w / 65536 := by omega
      have hbd : backBound C B w = max w B := by unfold backBound; rw [if_neg (by omega)]
      rw [hbd]
      have hBc : B < c.id * 65536 + 65536 := by omega
      generalize hf : B - c.id * 65536 = f
      have hu : max w B - c.id * 65536 = max (w % 65536) f := by omega
      have hgc : geq (max w B) c.elems
          = (geq (max (w % 65536) f) c.body.vals).map (c.id * 65536 + ·) := by
        unfold Chk.elems
        rw [geq_map_add (by omega), hu]
      have hfree : c.id ≠ e.chunk_id → f = 0 := by
        intro hid
        have := h1.free c post rfl hid
        omega
      -- the code after the chunk has been searched
      have hk : ∀ e1 : GeqEnum, e1.it = it → (∀ d ∈ post, d.id ≠ e1.chunk_id) →
          (∀ z, geq (max (w % 65536) f) c.body.vals = some z →
            BackInv pad m cs (c.id * 65536) (backB sp B w (c.id * 65536 + z)) e1 (c :: post)) →
          (∃ e' a cur', (if (geq (max (w % 65536) f) c.body.vals).getD not_found ≠ not_found then do
              let b ← e1.it.base m
              pure (e1, u32 ((geq (max (w % 65536) f) c.body.vals).getD not_found + b))
            else do
              let it ← e1.it.next m
              if it.has_next then do
                let v ← chunk_min dbg m it
                pure ({ e1 with it := it }, v)
              else pure ({ e1 with it := it }, not_found) : Res (GeqEnum × Nat)) = .ok (e', a) ∧
              geq (max w B) (seqElems (c :: post)) = some a ∧
              BackInv pad m cs (backC a) (backB sp B w a) e' cur' ∧ ∀ c ∈ cur', w / 65536 ≤ c.id) ∨
          (∃ e', (if (geq (max (w % 65536) f) c.body.vals).getD not_found ≠ not_found then do
              let b ← e1.it.base m
              pure (e1, u32 ((geq (max (w % 65536) f) c.body.vals).getD not_found + b))
            else do
              let it ← e1.it.next m
              if it.has_next then do
                let v ← chunk_min dbg m it
                pure ({ e1 with it := it }, v)
              else pure ({ e1 with it := it }, not_found) : Res (GeqEnum × Nat))
                = .ok (e', 4294967295) ∧
              geq (max w B) (seqElems (c :: post)) = none ∧ ItOn pad m e'.it []) := by
        intro e1 he1 hpost hinv
        rw [seqElems_cons, geq_append, hgc, he1, hit.base]
        cases hqz : geq (max (w % 65536) f) c.body.vals with
        | some z =>
          have hz := hc.2.bound z (List.mem_of_find?_eq_some hqz)
          simp only [Option.getD_some, Option.map_some, Option.some_or, pure_ok, not_found, ok_bind]
          rw [if_pos (by omega), u32_lt (by omega), Nat.add_comm]
          refine Or.inl ⟨e1, _, _, rfl, rfl, ?_, hids⟩
          have ha : backC (c.id * 65536 + z) = c.id * 65536 := by unfold backC; omega
          rw [ha]
          exact hinv z hqz
        | none =>
          simp only [Option.getD_none, ne_eq, not_true_eq_false, if_false, Option.map_none,
            Option.none_or]
          obtain ⟨it', e', hit', -⟩ := hit.next
          rw [e']
          simp only [ok_bind]
          cases post with
          | nil =>
            rw [hit'.has_next_nil]
            exact Or.inr ⟨_, rfl, rfl, hit'⟩
          | cons d post =>
            rw [hit'.has_next]
            obtain ⟨x, hx⟩ := hcw.tail.head.head?_exists
            have hxb := hcw.tail.head.2.bound x (List.mem_of_head? hx)
            have hdl := hcw.head_lt d List.mem_cons_self
            simp only [if_true]
            rw [chunk_min_spec hit' hit'.at_.2.1 hx, geq_head_of_le, seqElems_head? hx]
            · refine Or.inl ⟨_, _, d :: post, rfl, rfl, ?_, ?_⟩
              · have ha : (d.id * 65536 + x) / 65536 = d.id := by omega
                unfold backB backC
                rw [ha, if_neg (by omega)]
                have hq2 : cur = (q ++ [c]) ++ d :: post := by rw [hq]; simp
                have h2 := h.move hq2 hit'
                refine ⟨h2.pre, h2.ids, h2.slice, h2.le, h2.near, h2.some_, hit', ?_, ?_⟩
                · intro d' hd' hid
                  exact absurd hid (hpost d' hd')
                · intro _ _ _ _
                  omega
              · intro d' hd'
                have := hcw.head_lt d' hd'
                omega
            · intro y hy
              obtain ⟨d', hd, hid, -⟩ := (mem_seqElems hcw.tail).mp hy
              have := hcw.head_lt d' hd
              omega
      have hbody : BodyAt _ _ _ _ := hit.at_.2.1
      have hbw := hc.2
      have hnotin : ∀ d ∈ post, d.id ≠ e.chunk_id := by
        intro d hd hid
        obtain ⟨post', _, h5, -⟩ := h1.cache d (by simp [hd]) hid
        have := hcw.head_lt d hd
        cases h5
        omega
      -- a chunk that is not sparse: nothing is cached
      have hplain : (∀ bs, c.body ≠ .sparse bs) → f = 0 ∧
          ∀ z, geq (max (w % 65536) f) c.body.vals = some z →
            BackInv pad m cs (c.id * 65536) (backB sp B w (c.id * 65536 + z))
              { e with it := it } (c :: post) := by
        intro hns
        have hid : c.id ≠ e.chunk_id := by
          intro hid
          obtain ⟨_, bs, -, -, h7, -⟩ := h1.cache c (by simp) hid
          exact hns bs h7
        refine ⟨hfree hid, ?_⟩
        intro z hz
        have hzb := hc.2.bound z (List.mem_of_find?_eq_some hz)
        have ha : (c.id * 65536 + z) / 65536 = c.id := by omega
        have hspf : ¬ sp c.id = true := fun hh => by
          obtain ⟨bs, hbs⟩ := hspc.mp hh
          exact hns bs hbs
        unfold backB backC
        rw [ha, if_neg (fun hh => hspf hh.2)]
        exact h1
      cases hbd : c.body with
      | full =>
        rw [hit.type_full hbd]
        obtain ⟨hf0, hin⟩ := hplain (fun bs hbs => by rw [hbd] at hbs; cases hbs)
        have hm0 : max (w % 65536) f = w % 65536 := by omega
        have hg : geq (max (w % 65536) f) c.body.vals = some (w % 65536) := by
          rw [hm0, hbd]
          unfold geq Body.vals
          rw [List.find?_range_eq_some]
          refine ⟨by simp, List.mem_range.mpr (by omega), ?_⟩
          intro j hj
          simpa using hj
        have := hk { e with it := it } rfl hnotin hin
        rw [hg] at this
        simp only [Option.getD_some] at this
        simp only [ok_bind, type_sparse, type_dense, type_full, Nat.reduceEqDiff, if_false, if_true,
          pure_ok]
        exact this
      | dense vs =>
        rw [hit.type_dense hbd]
        obtain ⟨hf0, hin⟩ := hplain (fun bs hbs => by rw [hbd] at hbs; cases hbs)
        have hm0 : max (w % 65536) f = w % 65536 := by omega
        have hbody' := hbody
        have hbw' := hbw
        rw [hbd] at hbody' hbw'
        replace hbody' : BitsAt (memWords m it.data) 1024 (fun x => decide (x ∈ vs)) := hbody'
        have hval := next_geq_bitmap_spec (v := w % 65536) hbody' (by omega) (by omega) hbw'.2.1
          hbw'.2.2
        have := hk { e with it := it } rfl hnotin hin
        simp only [hbd, Body.vals, hm0] at this
        simp only [ok_bind, type_sparse, type_dense, Nat.reduceEqDiff, if_false, if_true]
        simp only [show chunk_size_in_64bit_words = 1024 from rfl, hval, ok_bind, pure_ok]
        exact this
      | sparse bs =>
        rw [hit.type_sparse hbd]
        obtain ⟨e1, he1, hi1, hcid1, hcache1⟩ := GeqEnum.sparse_case_back (dbg := dbg)
          (e := { e with it := it }) (w := w % 65536) (f := f) hit hbd (by omega) (by
            intro hid
            obtain ⟨post', bs', h5, h6, h7, h8⟩ := h1.cache c (by simp) hid
            rw [hbd] at h7
            cases h7
            rw [show max (c.id * 65536) B - c.id * 65536 = f by omega] at h8
            exact h8) hfree
        have hcache2 : ∀ z, geq (max (w % 65536) f) c.body.vals = some z →
            CacheAt pad m bs (z / 256 * 256) e1 := by
          intro z hz
          rw [hbd] at hz
          exact hcache1 z hz
        have hin : ∀ z, geq (max (w % 65536) f) c.body.vals = some z →
            BackInv pad m cs (c.id * 65536) (backB sp B w (c.id * 65536 + z)) e1 (c :: post) := by
          intro z hz
          have hzb := hc.2.bound z (List.mem_of_find?_eq_some hz)
          have ha : (c.id * 65536 + z) / 65536 = c.id := by omega
          have hB : backB sp B w (c.id * 65536 + z) = c.id * 65536 + z / 256 * 256 := by
            unfold backB backC
            rw [ha, if_pos ⟨by omega, hspc.mpr ⟨bs, hbd⟩⟩]
            omega
          rw [hB]
          refine ⟨h1.pre, h1.ids, h1.slice, by omega, by omega, h1.some_, by rw [hi1]; exact hit,
            ?_, ?_⟩
          · intro d hd hid
            rw [hcid1] at hid
            rcases List.mem_cons.mp hd with rfl | hd
            · exact ⟨post, bs, rfl, rfl, hbd, by
                rw [show d.id * 65536 + z / 256 * 256 - d.id * 65536 = z / 256 * 256 by omega]
                exact hcache2 z hz⟩
            · have := hcw.head_lt d hd; omega
          · intro d post' hd hid
            cases hd
            exact absurd hcid1.symm hid
        have := hk e1 hi1 (fun d hd => by
          have := hcw.head_lt d hd
          rw [hcid1]; omega) hin
        simp only [hbd, Body.vals] at this
        simp only [ok_bind, if_true, he1]
        exact this

/-- an iterator at the end answers every bound but 0 with `not_found` -/
theorem GeqEnum.next_geq_end {dbg : Bool} {pad : Nat} {m : Mem} {w : Nat} {e : GeqEnum}
    (h : ItOn pad m e.it []) (hw : 0 < w) :
    ∃ e', e.next_geq dbg m w = .ok (e', 4294967295) ∧ ItOn pad m e'.it [] := by
  obtain ⟨it, es, hit⟩ := It.skip_nojump (lb := w / 65536) h (by simp)
  unfold GeqEnum.next_geq
  simp only [es, ok_bind]
  have hit' : ItOn pad m it [] := hit
  rw [hit'.base_nil, hit'.has_next_nil]
  simp only [ok_bind, if_neg (show ¬ (0 ≥ w) by omega)]
  exact ⟨_, rfl, hit'⟩

end Sliced
