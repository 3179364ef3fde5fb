import Verif.Proof.NextGeq
import Verif.Model.NextGeqEnumerator
/-! # next_geq_enumerator.hpp -/
namespace Sliced

/-- next_geq_enumerator.hpp:47-89, the part of the sparse case after the cached chunk is set up -/
def GeqEnum.sparse_tail (m : Mem) (e : GeqEnum) (value : Nat) : Res (GeqEnum × Nat) := do
  let (b, d, i) ← skip_blocks m (value / 256) e.end_ (e.end_ - e.begin_ + 1) e.begin_ e.data e.id
  let e := { e with begin_ := b, data := d, id := i }
  if e.begin_ ≠ e.end_ then do
    let base := e.id * 256
    if base ≥ value then do
      let v ← block_min m e.begin_ e.data base
      return (e, v)
    else do
      let value := value % 256
      let mx ← max_value_in_block m e.begin_ e.data
      if value > mx then
        if e.begin_ + 2 = e.end_ then return (e, not_found)
        else do
          let c1 ← rd8 m (e.begin_ + 1)
          let data := e.data + bytes_by_cardinality (c1 + 1)
          let begin_ := e.begin_ + 2
          let id ← rd8 m begin_
          let e := { e with data := data, begin_ := begin_, id := id }
          let v ← block_min m e.begin_ e.data (e.id * 256)
          return (e, v)
      else do
        let base := e.id * 256
        let c1 ← rd8 m (e.begin_ + 1)
        let c := c1 + 1
        if c < 31 then do
          let x ← next_geq_sparse_block m e.data c value
          return (e, u32 (x + base))
        else do
          let x ← next_geq_bitmap (memWords m e.data) block_size_in_64bit_words value
          return (e, u32 (x + base))
  else return (e, not_found)

theorem GeqEnum.sparse_case_eq (dbg : Bool) (m : Mem) (e : GeqEnum) (value : Nat) :
    e.sparse_case dbg m value = (do
      let cid ← e.it.id m
      if e.chunk_id ≠ cid then do
        let blocks ← e.it.blocks m
        cassert dbg (blocks ≥ 1 && blocks ≤ 256)
        let id ← rd8 m e.it.data
        GeqEnum.sparse_tail m
          { e with
            begin_ := e.it.data
            data := e.it.data + blocks * 2
            end_ := e.it.data + blocks * 2
            id := id
            chunk_id := cid } value
      else GeqEnum.sparse_tail m e value) := by
  unfold GeqEnum.sparse_case GeqEnum.sparse_tail
  rfl

/-- The cached position inside the sparse chunk with blocks `bs`: the blocks `bs'` are in front of
it and everything before is below `w`. -/
def GeqCache (pad : Nat) (m : Mem) (bs : List Blk) (w : Nat) (e : GeqEnum) : Prop :=
  ∃ pre bs', bs = pre ++ bs' ∧ (∀ x ∈ blkElems pre, x < w) ∧ BlocksAt pad m e.begin_ e.data bs' ∧
    e.begin_ + 2 * bs'.length = e.end_ ∧ rd8 m e.begin_ = .ok e.id

theorem BlocksAt.rd8_head {pad : Nat} {m : Mem} {hp dp : Nat} {bs : List Blk}
    (h : BlocksAt pad m hp dp bs) : ∃ x, rd8 m hp = .ok x := by
  cases bs with
  | nil => exact h
  | cons d bs => exact ⟨_, h.1⟩

theorem GeqEnum.sparse_tail_spec {pad : Nat} {m : Mem} {e : GeqEnum} {w : Nat} {bs : List Blk}
    (hw0 : BlocksWF bs) (hv : w < 65536) (hc : GeqCache pad m bs w e) :
    ∃ e', e.sparse_tail m w = .ok (e', (geq w (blkElems bs)).getD not_found) ∧ e'.it = e.it ∧
      e'.chunk_id = e.chunk_id ∧ GeqCache pad m bs w e' ∧
      ∀ a, geq w (blkElems bs) = some a → e'.id = a / 256 := by
  obtain ⟨p0, bs0, hb0, hlt0, hat0, hend0, hid0⟩ := hc
  have hw : BlocksWF bs0 := by rw [hb0] at hw0; exact hw0.append_right
  obtain ⟨hp', dp', id', pre, bs', es, hbs, hpre, hat, he', hid', hle, hhd⟩ :=
    skip_blocks_spec (block_id := w / 256) (e.end_ - e.begin_ + 1) hw hat0 hend0 (by omega) hid0
  have hw' : BlocksWF bs' := by rw [hbs] at hw; exact hw.append_right
  have hwp : BlocksWF pre := by rw [hbs] at hw; exact hw.append_left
  have hltp : ∀ x ∈ blkElems pre, x < w := by
    intro x hx
    obtain ⟨b, hb, h1, h2⟩ := (mem_blkElems hwp).mp hx
    have := hpre b hb
    omega
  have hlt : ∀ x ∈ blkElems (p0 ++ pre), x < w := by
    intro x hx
    rw [blkElems_append, List.mem_append] at hx
    exact hx.elim (hlt0 x) (hltp x)
  have hsplit : bs = (p0 ++ pre) ++ bs' := by rw [hb0, hbs, List.append_assoc]
  have hg : geq w (blkElems bs) = geq w (blkElems bs') := by
    rw [hsplit, blkElems_append, geq_append, geq_none_of_lt hlt, Option.none_or]
  rw [hg]
  unfold GeqEnum.sparse_tail
  simp only [es, ok_bind]
  cases bs' with
  | nil =>
    simp at he'
    rw [if_neg (by simp [he'])]
    exact ⟨_, rfl, rfl, rfl, ⟨_, [], hsplit, hlt, hat, by simpa using he', hid'⟩, by simp [geq]⟩
  | cons b bs' =>
    simp only [List.length_cons] at he'
    rw [if_pos (by simp only [ne_eq]; omega)]
    have hcache : GeqCache pad m bs w { e with begin_ := hp', data := dp', id := id' } :=
      ⟨_, b :: bs', hsplit, hlt, hat, by simpa using he', hid'⟩
    obtain ⟨h1, h2, h3, h4⟩ := hat
    have hidb : id' = b.id := by rw [h1] at hid'; cases hid'; rfl
    subst hidb
    have hb := hw'.head
    have hbid := hb.1
    obtain ⟨x, hx⟩ := hb.head?_exists
    have hge := hhd b rfl
    by_cases hbase : b.id * 256 ≥ w
    · rw [if_pos hbase, block_min_spec hb h2 h3 (by omega) hx, geq_head_of_le, blkElems_head? hx]
      · refine ⟨_, rfl, rfl, rfl, hcache, ?_⟩
        intro a ha
        cases ha
        have := hb.2.2.2 x (List.mem_of_head? hx)
        show b.id = _
        omega
      · intro y hy
        obtain ⟨d, hd, e1, e2⟩ := (mem_blkElems hw').mp hy
        rcases List.mem_cons.mp hd with rfl | hd
        · omega
        · have := hw'.head_lt d hd; omega
    · rw [if_neg hbase]
      have hbeq : b.id = w / 256 := by omega
      obtain ⟨mx, emx, hmx1, hmx2⟩ := blk_max_spec hb h2 h3
      simp only [emx, ok_bind]
      have hvb : w - b.id * 256 = w % 256 := by omega
      rw [blkElems_cons, geq_append]
      by_cases hgt : w % 256 > mx
      · rw [if_pos hgt]
        have hbl : ∀ y ∈ b.elems, y < w := by
          intro y hy
          unfold Blk.elems at hy
          obtain ⟨z, hz, rfl⟩ := List.mem_map.mp hy
          have := hmx2 z hz
          omega
        rw [geq_none_of_lt hbl, Option.none_or]
        cases bs' with
        | nil =>
          simp at he'
          rw [if_pos he']
          exact ⟨_, rfl, rfl, rfl, hcache, by simp [geq]⟩
        | cons d ds =>
          simp only [List.length_cons] at he'
          rw [if_neg (by omega)]
          have h4' := h4
          obtain ⟨g1, g2, g3, g4⟩ := h4
          have hd := hw'.tail.head
          have hdid := hd.1
          obtain ⟨y, hy⟩ := hd.head?_exists
          have hc1 := hb.card_pos
          have hlt2 := hw'.head_lt d (by simp)
          rw [show b.size = bytes_by_cardinality b.vals.length from rfl] at g3 h4'
          simp only [h2, ok_bind, g1, show b.vals.length - 1 + 1 = b.vals.length by omega]
          rw [block_min_spec hd g2 g3 (by omega) hy, geq_head_of_le, blkElems_head? hy]
          · refine ⟨_, rfl, rfl, rfl, ⟨p0 ++ pre ++ [b], d :: ds, ?_, ?_, h4', ?_, g1⟩, ?_⟩
            · rw [hsplit]; simp
            · intro z hz
              rw [blkElems_append, List.mem_append] at hz
              rcases hz with hz | hz
              · exact hlt z hz
              · simp at hz; exact hbl z hz
            · simp only [List.length_cons]; omega
            · intro a ha
              cases ha
              have := hd.2.2.2 y (List.mem_of_head? hy)
              show d.id = _
              omega
          · intro y hy
            obtain ⟨d', hd', e1, e2⟩ := (mem_blkElems hw'.tail).mp hy
            rcases List.mem_cons.mp hd' with rfl | hd'
            · omega
            · have := hw'.tail.head_lt d' hd'; omega
      · rw [if_neg hgt]
        have hc1 := hb.card_pos
        simp only [h2, ok_bind, show b.vals.length - 1 + 1 = b.vals.length by omega]
        have hs := blk_geq_spec (v := w % 256) hb h3 (by omega)
        obtain ⟨z, hz⟩ : ∃ z, geq (w % 256) b.vals = some z := by
          cases hq : geq (w % 256) b.vals with
          | some z => exact ⟨z, rfl⟩
          | none =>
            unfold geq at hq
            rw [List.find?_eq_none] at hq
            have := hq mx hmx1
            simp at this; omega
        have hzm : z ∈ b.vals := List.mem_of_find?_eq_some hz
        have hz256 := hb.2.2.2 z hzm
        rw [hz] at hs
        have hfin : geq w b.elems = some (b.id * 256 + z) := by
          unfold Blk.elems
          rw [geq_map_add (by omega), hvb, hz]; rfl
        rw [hfin, Option.some_or]
        have hu : u32 (z + b.id * 256) = b.id * 256 + z := by rw [u32_lt (by omega), Nat.add_comm]
        by_cases hc : b.vals.length < 31
        · rw [if_pos hc] at hs ⊢
          rw [hs]; simp only [ok_bind, pure_ok, Option.getD_some]
          rw [hu]
          refine ⟨_, rfl, rfl, rfl, hcache, ?_⟩
          intro a ha
          cases ha
          show b.id = _
          omega
        · rw [if_neg hc] at hs ⊢
          rw [hs]; simp only [ok_bind, pure_ok, Option.getD_some]
          rw [hu]
          refine ⟨_, rfl, rfl, rfl, hcache, ?_⟩
          intro a ha
          cases ha
          show b.id = _
          omega

theorem GeqEnum.sparse_case_spec {dbg : Bool} {pad : Nat} {m : Mem} {e : GeqEnum} {w : Nat} {c : Chk}
    {post : List Chk} {bs : List Blk} (hit : ItOn pad m e.it (c :: post)) (hb : c.body = .sparse bs)
    (hv : w < 65536) (hc : c.id = e.chunk_id → GeqCache pad m bs w e) :
    ∃ e', e.sparse_case dbg m w = .ok (e', (geq w (blkElems bs)).getD not_found) ∧ e'.it = e.it ∧
      e'.chunk_id = c.id ∧ GeqCache pad m bs w e' := by
  have hbody : BodyAt _ _ _ _ := hit.at_.2.1
  have hbw := hit.wf.head.2
  rw [hb] at hbody hbw
  replace hbody : BlocksAt pad m e.it.data (e.it.data + 2 * bs.length) bs := hbody
  have hl1 := List.length_pos_iff.mpr hbw.1
  have hl2 := hbw.2.length_le
  rw [GeqEnum.sparse_case_eq, hit.id]
  simp only [ok_bind]
  by_cases hid : e.chunk_id = c.id
  · rw [if_neg (by simpa using hid)]
    obtain ⟨e', h1, h2, h3, h4, -⟩ := GeqEnum.sparse_tail_spec hbw.2 hv (hc hid.symm)
    exact ⟨e', h1, h2, h3.trans hid, h4⟩
  · rw [if_pos hid, hit.blocks_sparse hb]
    obtain ⟨i, hi⟩ := hbody.rd8_head
    simp only [ok_bind]
    rw [cassert_of (by simp; omega)]
    simp only [ok_bind, hi]
    have hcache : GeqCache pad m bs w { e with
        begin_ := e.it.data, data := e.it.data + bs.length * 2,
        end_ := e.it.data + bs.length * 2, id := i, chunk_id := c.id } := by
      refine ⟨[], bs, rfl, by simp, ?_, ?_, hi⟩
      · rw [show e.it.data + bs.length * 2 = e.it.data + 2 * bs.length by omega]; exact hbody
      · simp only; omega
    obtain ⟨e', h1, h2, h3, h4, -⟩ := GeqEnum.sparse_tail_spec hbw.2 hv hcache
    exact ⟨e', h1, h2, h3, h4⟩

/-- State of the enumerator after a call with bound `v` (or before the first call, `v = 0`). -/
structure GeqInv (pad : Nat) (m : Mem) (cs : List Chk) (v : Nat) (e : GeqEnum) (cur : List Chk) :
    Prop where
  pre : ∃ p, cs = p ++ cur ∧ ∀ x ∈ seqElems p, x < v
  ids : ∀ c ∈ cur, v / 65536 ≤ c.id
  it : ItOn pad m e.it cur
  cache : ∀ c ∈ cur, c.id = e.chunk_id → ∃ post bs, cur = c :: post ∧ c.body = .sparse bs ∧
    GeqCache pad m bs (v - c.id * 65536) e

theorem fromId_prefix (lb : Nat) (cs : List Chk) :
    ∃ p, cs = p ++ fromId lb cs ∧ ∀ d ∈ p, d.id < lb := by
  rcases fromId_cases lb cs with ⟨h1, h2⟩ | ⟨pre, c, post, h1, h2, h3, h4⟩
  · exact ⟨cs, by simp [h1], h2⟩
  · exact ⟨pre, by rw [h2, h1], h3⟩

theorem GeqCache.mono {pad : Nat} {m : Mem} {bs : List Blk} {w w' : Nat} {e : GeqEnum}
    (h : GeqCache pad m bs w e) (hw : w ≤ w') : GeqCache pad m bs w' e := by
  obtain ⟨p, b, h1, h2, h3⟩ := h
  exact ⟨p, b, h1, fun x hx => by have := h2 x hx; omega, h3⟩

theorem seqElems_append' (a b : List Chk) : seqElems (a ++ b) = seqElems a ++ seqElems b := by
  simp [seqElems]

/-- moving the iterator to a later chunk keeps the invariant -/
theorem GeqInv.move {pad : Nat} {m : Mem} {cs : List Chk} {v v' : Nat} {e : GeqEnum}
    {q cur cur' : List Chk} {it : It} (h : GeqInv pad m cs v e cur)
    (hv : v ≤ v') (hsplit : cur = q ++ cur') (hq : ∀ x ∈ seqElems q, x < v')
    (hids : ∀ c ∈ cur', v' / 65536 ≤ c.id)
    (hit : ItOn pad m it cur') : GeqInv pad m cs v' { e with it := it } cur' := by
  obtain ⟨p, hp, hlt⟩ := h.pre
  refine ⟨⟨p ++ q, by rw [hp, hsplit, List.append_assoc], ?_⟩, hids, hit, ?_⟩
  · intro x hx
    rw [seqElems_append', List.mem_append] at hx
    rcases hx with hx | hx
    · have := hlt x hx; omega
    · exact hq x hx
  · intro c hc hid
    obtain ⟨post, bs, h1, h2, h3⟩ := h.cache c (by rw [hsplit]; simp [hc]) hid
    have hq : q = [] := by
      cases q with
      | nil => rfl
      | cons d q =>
        rw [hsplit] at h1
        simp only [List.cons_append, List.cons.injEq] at h1
        obtain ⟨rfl, h1⟩ := h1
        have hw := h.it.wf
        rw [hsplit] at hw
        have := hw.head_lt d (by simp [hc])
        omega
    subst hq
    refine ⟨post, bs, by rw [← h1, hsplit, List.nil_append], h2, ?_⟩
    exact GeqCache.mono h3 (by omega)

theorem Chk.mem_elems {c : Chk} {x : Nat} (h : x ∈ c.body.vals) : c.id * 65536 + x ∈ c.elems := by
  unfold Chk.elems
  exact List.mem_map_of_mem h

theorem GeqEnum.next_geq_spec {dbg : Bool} {pad : Nat} {m : Mem} {cs cur : List Chk} {v v' : Nat}
    {e : GeqEnum} {it : It} (hne : cs ≠ []) (hcs : ChunksWF cs) (h : GeqInv pad m cs v e cur) (hv : v ≤ v')
    (hv' : v' < 4294967296)
    (es : e.it.skip_to_value m (v' / 65536) = .ok it)
    (hit : ItOn pad m it (fromId (v' / 65536) cur)) :
    ∃ e' cur', e.next_geq dbg m v' = .ok (e', (geq v' (seqElems cs)).getD 4294967295) ∧
      GeqInv pad m cs v' e' cur' ∧ (e'.it = it ∨ it.next m = .ok e'.it) ∧
      ∀ c post, cur' = c :: post → ∃ x ∈ c.elems, v' ≤ x := by
  obtain ⟨q, hq, hqlt⟩ := fromId_prefix (v' / 65536) cur
  have hwcur := h.it.wf
  have hwq : ChunksWF q := by
    rw [hq] at hwcur
    exact ⟨(List.pairwise_append.mp hwcur.1).1, fun d hd => hwcur.2 d (by simp [hd])⟩
  have hqe : ∀ x ∈ seqElems q, x < v' := by
    intro x hx
    obtain ⟨d, hd, hid, -⟩ := (mem_seqElems hwq).mp hx
    have := hqlt d hd
    omega
  have hids : ∀ c ∈ fromId (v' / 65536) cur, v' / 65536 ≤ c.id := by
    rcases fromId_cases (v' / 65536) cur with ⟨h1, -⟩ | ⟨pre, c, post, h1, h2, h3, h4⟩
    · rw [h1]; simp
    · rw [h2] at hit ⊢
      intro d hd
      rcases List.mem_cons.mp hd with rfl | hd
      · exact h4
      · have := hit.wf.head_lt d hd; omega
  have h1 := h.move hv hq hqe hids hit
  generalize hcur1 : fromId (v' / 65536) cur = cur1 at *
  obtain ⟨p, hp, hplt⟩ := h1.pre
  have hg : geq v' (seqElems cs) = geq v' (seqElems cur1) := by
    rw [hp, seqElems_append', geq_append, geq_none_of_lt hplt, Option.none_or]
  rw [hg]
  unfold GeqEnum.next_geq
  simp only [es, ok_bind]
  cases cur1 with
  | nil =>
    rw [hit.base_nil, hit.has_next_nil]
    have hv0 : ¬ (0 ≥ v') := by
      intro hv0
      rw [List.append_nil] at hp
      subst hp
      cases cs with
      | nil => exact hne rfl
      | cons c cs =>
        obtain ⟨x, hx⟩ := hcs.head.head?_exists
        have := hplt (c.id * 65536 + x) (List.mem_of_head? (seqElems_head? hx))
        omega
    simp only [ok_bind, if_neg hv0]
    exact ⟨_, [], rfl, h1, Or.inl rfl, by simp⟩
  | cons c post =>
    have hcw : ChunksWF (c :: post) := hit.wf
    have hc := hcw.head
    have hcid := hc.1
    have hcge := hids c (by simp)
    rw [hit.base, hit.has_next]
    simp only [ok_bind, if_true]
    by_cases hb : c.id * 65536 ≥ v'
    · rw [if_pos hb]
      obtain ⟨x, hx⟩ := hc.head?_exists
      rw [chunk_min_spec hit hit.at_.2.1 hx, geq_head_of_le, seqElems_head? hx]
      · refine ⟨_, _, rfl, h1, Or.inl rfl, ?_⟩
        intro d post' hd
        cases hd
        have hx' := List.mem_of_head? hx
        exact ⟨c.id * 65536 + x, Chk.mem_elems hx', Nat.le_trans hb (Nat.le_add_right _ _)⟩
      · intro y hy
        obtain ⟨d, hd, hid, -⟩ := (mem_seqElems hcw).mp hy
        rcases List.mem_cons.mp hd with rfl | hd
        · omega
        · have := hcw.head_lt d hd; omega
    · rw [if_neg hb]
      have hceq : c.id = v' / 65536 := by omega
      have hgc : geq v' c.elems = (geq (v' % 65536) c.body.vals).map (c.id * 65536 + ·) := by
        unfold Chk.elems
        rw [geq_map_add (by omega)]
        congr 2; omega
      -- the code after the chunk has been searched
      have hk : ∀ e1 : GeqEnum, e1.it = it → GeqInv pad m cs v' e1 (c :: post) →
          ∃ e' cur', (if (geq (v' % 65536) c.body.vals).getD not_found ≠ not_found then do
              let b ← e1.it.base m
              pure (e1, u32 ((geq (v' % 65536) c.body.vals).getD not_found + b))
            else do
              let it ← e1.it.next m
              if it.has_next then do
                let v ← chunk_min dbg m it
                pure ({ e1 with it := it }, v)
              else pure ({ e1 with it := it }, not_found) : Res (GeqEnum × Nat))
            = .ok (e', (geq v' (seqElems (c :: post))).getD 4294967295) ∧
              GeqInv pad m cs v' e' cur' ∧ (e'.it = it ∨ it.next m = .ok e'.it) ∧
              ∀ c post, cur' = c :: post → ∃ x ∈ c.elems, v' ≤ x := by
        intro e1 he1 hinv
        rw [seqElems_cons, geq_append, hgc, he1, hit.base]
        cases hq : geq (v' % 65536) c.body.vals with
        | some z =>
          have hz := hc.2.bound z (List.mem_of_find?_eq_some hq)
          simp only [Option.getD_some, Option.map_some, Option.some_or, pure_ok, not_found, ok_bind]
          rw [if_pos (by omega), u32_lt (by omega), Nat.add_comm]
          refine ⟨e1, _, rfl, hinv, Or.inl he1, ?_⟩
          intro d post' hd
          cases hd
          refine ⟨c.id * 65536 + z, Chk.mem_elems (List.mem_of_find?_eq_some hq), ?_⟩
          have := List.find?_some hq
          simp at this
          omega
        | none =>
          simp only [Option.getD_none, ne_eq, not_true_eq_false, if_false, Option.map_none,
            Option.none_or]
          obtain ⟨it', e', hit', -⟩ := hit.next
          rw [e']
          simp only [ok_bind]
          have hall : ∀ x ∈ seqElems [c], x < v' := by
            intro x hx
            rw [seqElems_cons, seqElems_nil, List.append_nil] at hx
            unfold Chk.elems at hx
            obtain ⟨y, hy, rfl⟩ := List.mem_map.mp hx
            unfold geq at hq
            have := List.find?_eq_none.mp hq y hy
            simp at this
            omega
          have hinv' := hinv.move (Nat.le_refl _) (q := [c]) (cur' := post) rfl hall
            (fun d hd => by have := hcw.head_lt d hd; omega) hit'
          cases post with
          | nil => rw [hit'.has_next_nil]; exact ⟨_, _, rfl, hinv', Or.inr rfl, by simp⟩
          | cons d post =>
            rw [hit'.has_next]
            obtain ⟨x, hx⟩ := hcw.tail.head.head?_exists
            simp only [if_true]
            rw [chunk_min_spec hit' hit'.at_.2.1 hx, geq_head_of_le, seqElems_head? hx]
            · refine ⟨_, _, rfl, hinv', Or.inr rfl, ?_⟩
              intro d' post' hd
              cases hd
              have := hcw.head_lt d List.mem_cons_self
              have hx' := List.mem_of_head? hx
              exact ⟨d.id * 65536 + x, Chk.mem_elems hx', by omega⟩
            · intro y hy
              obtain ⟨d', hd, hid, -⟩ := (mem_seqElems hcw.tail).mp hy
              have := hcw.head_lt d' hd
              omega
      have hbody : BodyAt _ _ _ _ := hit.at_.2.1
      have hbw := hc.2
      cases hbd : c.body with
      | full =>
        rw [hit.type_full hbd]
        have hg : geq (v' % 65536) c.body.vals = some (v' % 65536) := by
          rw [hbd]
          unfold geq Body.vals
          rw [List.find?_range_eq_some]
          refine ⟨by simp, List.mem_range.mpr (by omega), ?_⟩
          intro j hj
          simpa using hj
        have := hk _ rfl h1
        rw [hg] at this
        simp only [Option.getD_some] at this
        simp only [ok_bind, type_sparse, type_dense, type_full, Nat.reduceEqDiff, if_false, if_true,
          pure_ok]
        exact this
      | dense vs =>
        rw [hit.type_dense hbd]
        have hbody' := hbody
        have hbw' := hbw
        rw [hbd] at hbody' hbw'
        replace hbody' : BitsAt (memWords m it.data) 1024 (fun x => decide (x ∈ vs)) := hbody'
        have hval := next_geq_bitmap_spec (v := v' % 65536) hbody' (by omega) (by omega) hbw'.2.1
          hbw'.2.2
        have := hk _ rfl h1
        simp only [hbd, Body.vals] at this
        simp only [ok_bind, type_sparse, type_dense, Nat.reduceEqDiff, if_false, if_true]
        simp only [show chunk_size_in_64bit_words = 1024 from rfl, hval, ok_bind, pure_ok]
        exact this
      | sparse bs =>
        rw [hit.type_sparse hbd]
        have hcv : v' - c.id * 65536 = v' % 65536 := by omega
        obtain ⟨e1, he1, hi1, hcid1, hcache1⟩ := GeqEnum.sparse_case_spec (dbg := dbg)
          (e := { e with it := it }) (w := v' % 65536) hit hbd (by omega) (by
            intro hid
            obtain ⟨post', bs', h5, h6, h7⟩ := h1.cache c (by simp) hid
            rw [hbd] at h6
            cases h6
            rw [hcv] at h7
            exact h7)
        have hinv1 : GeqInv pad m cs v' e1 (c :: post) := by
          refine ⟨h1.pre, h1.ids, by rw [hi1]; exact hit, ?_⟩
          intro d hd hid
          rw [hcid1] at hid
          rcases List.mem_cons.mp hd with rfl | hd
          · exact ⟨post, bs, rfl, hbd, by rw [hcv]; exact hcache1⟩
          · have := hcw.head_lt d hd; omega
        have := hk e1 hi1 hinv1
        simp only [hbd, Body.vals] at this
        simp only [ok_bind, if_true, he1]
        exact this

/-! ## When the skip is right -/

theorem It.skip_nojump {pad : Nat} {m : Mem} {lb : Nat} {it : It} {cs : List Chk}
    (h : ItOn pad m it cs) (hj : ∀ c, cs[32]? = some c → lb < c.id) :
    ∃ it', it.skip_to_value m lb = .ok it' ∧ ItOn pad m it' (fromId lb cs) := by
  have hend := h.end_
  have e1 : It.skip_value_loop m lb (it.end_ - it.begin_ + 1) it = .ok it := by
    unfold It.skip_value_loop
    by_cases hl : 32 < cs.length
    · have hc : cs[32]? = some cs[32] := List.getElem?_eq_getElem hl
      have hh := (h.hdr hc).1
      rw [if_pos (by simp only [It.skip_position, associativity]; omega)]
      have : it.skip_header = it.header + 8 * 32 := rfl
      rw [this, hh]
      simp only [ok_bind]
      have := hj _ hc
      rw [if_neg (by omega)]
      rfl
    · rw [if_neg (by simp only [It.skip_position, associativity]; omega)]
      rfl
  obtain ⟨it2, e2, h2, -⟩ := It.advance_spec (lb := lb) h
  refine ⟨it2, ?_, h2⟩
  unfold It.skip_to_value
  rw [e1]; exact e2

end Sliced
