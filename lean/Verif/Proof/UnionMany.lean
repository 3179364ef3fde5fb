import Verif.Proof.Uncompress
import Verif.Proof.Intersection
import Verif.Proof.UnionBlock
import Verif.Model.UnionMany
/-! # Union of many sequences -/
namespace Sliced

theorem or_words_loop_spec {W : Words} {Q : Nat → Bool} (n i : Nat) {out : List Nat}
    {P : Nat → Bool} (hW : BitsAt W (i + n) Q) (h : BufIs out P) (hcap : i + n ≤ out.length) :
    ∃ out', or_words_loop W n i out = .ok out' ∧ out'.length = out.length ∧
      BufIs out' (fun x => if 64 * i ≤ x ∧ x < 64 * (i + n) then P x || Q x else P x) := by
  induction n generalizing i out P with
  | zero =>
    refine ⟨out, rfl, rfl, h.congr ?_⟩
    intro x _
    rw [if_neg (by omega)]
  | succ n ih =>
    obtain ⟨y, ey, by1, ty⟩ := hW i (by omega)
    obtain ⟨x, ex, bx, tx⟩ := h.rdv (i := i) (by omega)
    have hor : (x ||| y) < 18446744073709551616 := Nat.or_lt_two_pow (n := 64) bx by1
    obtain ⟨o, eo, lo, bo⟩ := h.wr (i := i) (w := x ||| y)
      (P' := fun z => if z / 64 = i then P z || Q z else P z) (by omega) hor
      (by
        intro j hj
        rw [if_pos (by omega), Nat.testBit_or, tx j hj, ty j hj])
      (fun z hz => if_neg hz)
    obtain ⟨o', e', l', b'⟩ := ih (i + 1) (out := o) (by rw [show i + 1 + n = i + (n + 1) by omega]; exact hW)
      bo (by omega)
    refine ⟨o', ?_, by omega, b'.congr ?_⟩
    · simp only [or_words_loop, ey, ex, eo, ok_bind, e']
    · intro z _
      by_cases h1 : z / 64 = i
      · rw [if_neg (by omega), if_pos h1, if_pos (by omega)]
      · simp only [if_neg h1]
        by_cases h2 : 64 * (i + 1) ≤ z ∧ z < 64 * (i + 1 + n)
        · rw [if_pos h2, if_pos (by omega)]
        · rw [if_neg h2, if_neg (by omega)]

theorem uncompress_chunk_and_merge_spec {dbg : Bool} {pad : Nat} {m : Mem} {it : It} {c : Chk}
    {cs : List Chk} {tmp bitmap : List Nat} {P : Nat → Bool} (hit : ItOn pad m it (c :: cs))
    (ht : tmp.length = 1024) (hb : bitmap.length = 1024) (h : BufIs bitmap P) :
    ∃ tmp' bitmap', uncompress_chunk_and_merge dbg m it tmp bitmap = .ok (tmp', bitmap') ∧
      tmp'.length = 1024 ∧ bitmap'.length = 1024 ∧
      BufIs bitmap' (fun x => P x || decide (x ∈ c.body.vals)) := by
  have hw := hit.wf.head.2
  have hbody : BodyAt _ _ _ _ := hit.at_.2.1
  have c1024 : chunk_size_in_64bit_words = 1024 := rfl
  unfold uncompress_chunk_and_merge
  cases e : c.body with
  | full =>
    obtain ⟨o, eo, lo, bo⟩ := wrs_replicate_spec 1024 (p := 0) (w := 18446744073709551615) (b := true)
      (by omega) (fun j hj => testBit_ones hj) h (by omega)
    refine ⟨tmp, o, ?_, ht, by omega, bo.congr ?_⟩
    · rw [hit.type_full e]
      simp only [ok_bind, type_full, type_sparse, type_dense, uncompress_full_chunk_and_merge, c1024,
        eo]
      rfl
    · intro x hx
      have : x ∈ Body.full.vals := List.mem_range.mpr (by omega)
      rw [if_pos (by omega), decide_eq_true this, Bool.or_true]
  | dense vs =>
    rw [e] at hbody
    obtain ⟨o, eo, lo, bo⟩ := or_words_loop_spec 1024 0 (W := memWords m it.data)
      (Q := fun x => decide (x ∈ vs)) (by rw [Nat.zero_add]; exact hbody) h (by omega)
    refine ⟨tmp, o, ?_, ht, by omega, bo.congr ?_⟩
    · rw [hit.type_dense e]
      simp only [ok_bind, type_full, type_sparse, type_dense, uncompress_dense_chunk_and_merge, c1024,
        eo]
      rfl
    · intro x hx
      rw [if_pos (by omega)]; rfl
  | sparse bs =>
    rw [e] at hbody hw
    have hz : BufIs (List.replicate tmp.length 0) (fun _ => false) :=
      bufIs_replicate (by omega) (fun j _ _ => by simp)
    obtain ⟨x', e1, l1, b1⟩ := uncompress_sparse_chunk_spec (dbg := dbg)
      (out := List.replicate tmp.length 0) (p := 0) hw.1 hw.2 hbody hz
      (by rw [List.length_replicate]; omega) (fun _ _ _ => rfl)
    rw [List.length_replicate, ht] at l1
    have b2 := b1.bitsAt (n := 1024) (by omega)
    obtain ⟨o, eo, lo, bo⟩ := or_words_loop_spec 1024 0 (by simpa using b2) h (by omega)
    refine ⟨x', o, ?_, l1, by omega, bo.congr ?_⟩
    · rw [hit.type_sparse e]
      simp only [ok_bind, if_true, hit.blocks_sparse e, uncompress_sparse_chunk_and_merge, c1024, e1, eo,
        pure_ok]
    · intro x hx
      rw [if_pos (by omega)]
      rfl

/-- the id an iterator with the chunks `cs` ahead shows -/
def headId : List Chk → Nat
  | [] => 65536
  | c :: _ => c.id

/-- is `x` in the chunk in front, and is its id `h`? -/
def headHas (h x : Nat) : List Chk → Bool
  | [] => false
  | c :: _ => decide (c.id = h) && decide (x ∈ c.body.vals)

/-- drop the chunk in front if its id is `h` -/
def dropHead (h : Nat) : List Chk → List Chk
  | [] => []
  | c :: cs => if c.id = h then cs else c :: cs

theorem ItOn.id' {pad : Nat} {m : Mem} {it : It} {cs : List Chk} (h : ItOn pad m it cs) :
    it.id m = .ok (headId cs) := by
  cases cs with
  | nil => exact h.id_nil
  | cons c cs => exact h.id

/-- `its` are iterators with the chunks `css` ahead. -/
def ItsOn (pad : Nat) (m : Mem) : List It → List (List Chk) → Prop
  | [], [] => True
  | it :: its, cs :: css => ItOn pad m it cs ∧ ItsOn pad m its css
  | _, _ => False

/-- the static buffers of `union_many` -/
def MScratch.Ok (s : MScratch) : Prop := WordsBuf 1024 s.bitmap ∧ s.tmp.length = 1024

theorem merge_loop_false_spec {dbg : Bool} {pad : Nat} {m : Mem} {header : Nat} (hh : header < 65536)
    {its : List It} {css : List (List Chk)} {s : MScratch} {P : Nat → Bool}
    (h : ItsOn pad m its css) (hs : s.Ok) (hb : BufIs s.bitmap P) :
    ∃ s', merge_loop dbg m header its false s = .ok (false, s') ∧ s'.Ok ∧
      BufIs s'.bitmap (fun x => P x || css.any (headHas header x)) := by
  induction its generalizing css s P with
  | nil =>
    cases css with
    | nil => exact ⟨s, rfl, hs, by simpa using hb⟩
    | cons cs css => exact absurd h (by simp [ItsOn])
  | cons it its ih =>
    cases css with
    | nil => exact absurd h (by simp [ItsOn])
    | cons cs css =>
      obtain ⟨h1, h2⟩ := h
      simp only [merge_loop, h1.id', ok_bind]
      by_cases hid : headId cs = header
      · rw [if_pos hid]
        cases cs with
        | nil => simp [headId] at hid; omega
        | cons c cs =>
          obtain ⟨t, b, e, lt, lb, bb⟩ := uncompress_chunk_and_merge_spec (dbg := dbg) h1 hs.2 hs.1.1 hb
          obtain ⟨s', e', hs', b'⟩ := ih (s := ⟨b, t⟩) h2 ⟨⟨lb, bb.words⟩, lt⟩ bb
          refine ⟨s', ?_, hs', b'.congr ?_⟩
          · simp only [Bool.false_eq_true, if_false, e, ok_bind, e']
          · intro x _
            have hid' : c.id = header := hid
            simp only [List.any_cons, headHas, hid', decide_true, Bool.true_and, Bool.or_assoc]
      · rw [if_neg hid]
        obtain ⟨s', e', hs', b'⟩ := ih h2 hs hb
        refine ⟨s', e', hs', b'.congr ?_⟩
        intro x _
        have : headHas header x cs = false := by
          cases cs with
          | nil => rfl
          | cons c cs => simp [headHas]; intro h; exact absurd h hid
        simp only [List.any_cons, this, Bool.false_or]

theorem merge_loop_spec {dbg : Bool} {pad : Nat} {m : Mem} {header : Nat} (hh : header < 65536)
    {its : List It} {css : List (List Chk)} {s : MScratch}
    (h : ItsOn pad m its css) (hs : s.Ok) (hex : ∃ cs ∈ css, headId cs = header) :
    ∃ s', merge_loop dbg m header its true s = .ok (false, s') ∧ s'.Ok ∧
      BufIs s'.bitmap (fun x => css.any (headHas header x)) := by
  induction its generalizing css with
  | nil =>
    cases css with
    | nil => simp at hex
    | cons cs css => exact absurd h (by simp [ItsOn])
  | cons it its ih =>
    cases css with
    | nil => exact absurd h (by simp [ItsOn])
    | cons cs css =>
      obtain ⟨h1, h2⟩ := h
      simp only [merge_loop, h1.id', ok_bind]
      by_cases hid : headId cs = header
      · rw [if_pos hid]
        cases cs with
        | nil => simp [headId] at hid; omega
        | cons c cs =>
          obtain ⟨b, e, lb, bb⟩ := uncompress_chunk_spec (dbg := dbg) h1 (p := 0) (bufIs_self hs.1.2)
            (by rw [hs.1.1]; omega)
          rw [hs.1.1] at lb
          have bb' : BufIs b (fun x => decide (x ∈ c.body.vals)) := by
            refine bb.congr ?_
            intro x hx
            rw [if_pos (by omega)]; rfl
          obtain ⟨s', e', hs', b'⟩ := merge_loop_false_spec (dbg := dbg) hh
            (s := { s with bitmap := b }) h2 ⟨⟨lb, bb.words⟩, hs.2⟩ bb'
          refine ⟨s', ?_, hs', b'.congr ?_⟩
          · simp only [if_true, e, ok_bind, e']
          · intro x _
            have hid' : c.id = header := hid
            simp only [List.any_cons, headHas, hid', decide_true, Bool.true_and]
      · rw [if_neg hid]
        obtain ⟨s', e', hs', b'⟩ := ih h2 (by
          obtain ⟨d, hd, hd'⟩ := hex
          rcases List.mem_cons.mp hd with rfl | hd
          · exact absurd hd' hid
          · exact ⟨d, hd, hd'⟩)
        refine ⟨s', e', hs', b'.congr ?_⟩
        intro x _
        have : headHas header x cs = false := by
          cases cs with
          | nil => rfl
          | cons c cs => simp [headHas]; intro h; exact absurd h hid
        simp only [List.any_cons, this, Bool.false_or]

/-- `next` is the least of `lim` and the ids in front. -/
def IsMin (next lim : Nat) (css : List (List Chk)) : Prop :=
  next ≤ lim ∧ (∀ cs ∈ css, next ≤ headId cs) ∧ (next = lim ∨ ∃ cs ∈ css, headId cs = next)

theorem step_loop_spec {pad : Nat} {m : Mem} {header : Nat} (hh : header < 65536)
    {its : List It} {css : List (List Chk)} (next : Nat) (h : ItsOn pad m its css) :
    ∃ its' next', step_loop m header its next = .ok (its', next') ∧
      ItsOn pad m its' (css.map (dropHead header)) ∧ IsMin next' next (css.map (dropHead header)) := by
  induction its generalizing css next with
  | nil =>
    cases css with
    | nil => exact ⟨[], next, rfl, trivial, Nat.le_refl _, by simp, Or.inl rfl⟩
    | cons cs css => exact absurd h (by simp [ItsOn])
  | cons it its ih =>
    cases css with
    | nil => exact absurd h (by simp [ItsOn])
    | cons cs css =>
      obtain ⟨h1, h2⟩ := h
      have step : ∃ it', (if headId cs = header then it.next m else pure it) = .ok it' ∧
          ItOn pad m it' (dropHead header cs) := by
        cases cs with
        | nil => exact ⟨it, by rw [if_neg (by simp [headId]; omega)]; rfl, h1⟩
        | cons c cs =>
          by_cases hid : c.id = header
          · obtain ⟨it', e, h', -⟩ := h1.next
            exact ⟨it', (if_pos hid).trans e, by simp only [dropHead, if_pos hid]; exact h'⟩
          · exact ⟨it, (if_neg hid).trans rfl, by simp only [dropHead, if_neg hid]; exact h1⟩
      obtain ⟨it', e1, h1'⟩ := step
      obtain ⟨its', next', e2, h2', m1, m2, m3⟩ := ih
        (if headId (dropHead header cs) < next then headId (dropHead header cs) else next) h2
      refine ⟨it' :: its', next', ?_, ⟨h1', h2'⟩, ?_⟩
      · simp only [step_loop, h1.id', ok_bind]
        by_cases hid : headId cs = header
        · rw [if_pos hid] at e1 ⊢
          simp only [e1, ok_bind, h1'.id', e2, pure_ok]
        · rw [if_neg hid] at e1 ⊢
          simp only [pure_ok, Except.ok.injEq] at e1
          subst e1
          simp only [ok_bind, h1'.id', e2, pure_ok]
      · rw [List.map_cons]
        refine ⟨?_, ?_, ?_⟩
        · split at m1 <;> omega
        · intro d hd
          rcases List.mem_cons.mp hd with rfl | hd
          · split at m1 <;> omega
          · exact m2 d hd
        · rcases m3 with m3 | ⟨d, hd, hd'⟩
          · split at m3
            · exact Or.inr ⟨_, List.mem_cons_self .., m3.symm⟩
            · exact Or.inl m3
          · exact Or.inr ⟨d, List.mem_cons_of_mem _ hd, hd'⟩

theorem mem_chk_elems {c : Chk} (hw : c.WF) {v : Nat} :
    v ∈ c.elems ↔ v / 65536 = c.id ∧ v % 65536 ∈ c.body.vals := by
  unfold Chk.elems
  rw [List.mem_map]
  constructor
  · rintro ⟨x, hx, rfl⟩
    have := hw.2.bound x hx
    exact ⟨by omega, by rw [show (c.id * 65536 + x) % 65536 = x by omega]; exact hx⟩
  · rintro ⟨h1, h2⟩
    exact ⟨_, h2, by omega⟩

theorem seq_split {cs : List Chk} (hw : ChunksWF cs) {header v : Nat} (hh : header < 65536)
    (hle : header ≤ headId cs) :
    (v ∈ seqElems cs ↔ (v / 65536 = header ∧ headHas header (v % 65536) cs = true) ∨
      v ∈ seqElems (dropHead header cs)) ∧
    (v ∈ seqElems (dropHead header cs) → header < v / 65536) := by
  have later : ∀ {ds : List Chk}, ChunksWF ds → (∀ d ∈ ds, header < d.id) →
      v ∈ seqElems ds → header < v / 65536 := by
    intro ds wd hd hv
    unfold seqElems at hv
    rw [List.mem_flatMap] at hv
    obtain ⟨d, hd', hv⟩ := hv
    have := (mem_chk_elems (wd.2 d hd')).mp hv
    have := hd d hd'
    omega
  cases cs with
  | nil => simp [seqElems, headHas, dropHead]
  | cons c cs =>
    have hcons : v ∈ seqElems (c :: cs) ↔ v ∈ c.elems ∨ v ∈ seqElems cs := by
      rw [show seqElems (c :: cs) = c.elems ++ seqElems cs from rfl, List.mem_append]
    by_cases hid : c.id = header
    · simp only [dropHead, if_pos hid, headHas, decide_eq_true hid, Bool.true_and,
        decide_eq_true_eq]
      refine ⟨?_, later hw.tail (fun d hd => by have := hw.head_lt d hd; omega)⟩
      rw [hcons, mem_chk_elems hw.head, hid]
    · have hlt : header < c.id := by
        have : header ≤ c.id := hle
        omega
      simp only [dropHead, if_neg hid, headHas, decide_eq_false hid, Bool.false_and,
        Bool.false_eq_true, and_false, false_or, true_and]
      refine later hw ?_
      intro d hd
      have := hw.ge_head d hd
      omega

theorem ItsOn.wf {pad : Nat} {m : Mem} {its : List It} {css : List (List Chk)}
    (h : ItsOn pad m its css) : ∀ cs ∈ css, ChunksWF cs := by
  induction its generalizing css with
  | nil =>
    cases css with
    | nil => simp
    | cons cs css => exact absurd h (by simp [ItsOn])
  | cons it its ih =>
    cases css with
    | nil => simp
    | cons cs css =>
      intro d hd
      rcases List.mem_cons.mp hd with rfl | hd
      · exact h.1.wf
      · exact ih h.2 d hd

/-- The elements of the slice `header` and those of the later ones. -/
theorem union_slice_split {pad : Nat} {m : Mem} {its : List It} {css : List (List Chk)} {header : Nat}
    {Z : List Nat} (h : ItsOn pad m its css) (hh : header < 65536) (hlo : ∀ cs ∈ css, header ≤ headId cs)
    (hZ : Enumerates Z (fun v => ∃ cs ∈ css, v ∈ seqElems cs)) :
    Z = ((List.range 65536).filter (fun x => css.any (headHas header x))).map (header * 65536 + ·)
        ++ Z.filter (fun v => decide (header < v / 65536)) ∧
    Enumerates (Z.filter (fun v => decide (header < v / 65536)))
      (fun v => ∃ cs ∈ css.map (dropHead header), v ∈ seqElems cs) := by
  let P : Nat → Bool := fun x => css.any (headHas header x)
  let U := (List.range 65536).filter P
  let Z2 := Z.filter (fun v => decide (header < v / 65536))
  have split : ∀ v, (∃ cs ∈ css, v ∈ seqElems cs) ↔
      (v / 65536 = header ∧ P (v % 65536) = true) ∨
      ∃ cs ∈ css.map (dropHead header), v ∈ seqElems cs := by
    intro v
    constructor
    · rintro ⟨cs, hc, hv⟩
      rcases ((seq_split (h.wf cs hc) hh (hlo cs hc)).1.mp hv) with ⟨h1, h2⟩ | h2
      · exact Or.inl ⟨h1, List.any_eq_true.mpr ⟨cs, hc, h2⟩⟩
      · exact Or.inr ⟨_, List.mem_map_of_mem hc, h2⟩
    · rintro (⟨h1, h2⟩ | ⟨d, hd, h2⟩)
      · obtain ⟨cs, hc, h2⟩ := List.any_eq_true.mp h2
        exact ⟨cs, hc, (seq_split (h.wf cs hc) hh (hlo cs hc)).1.mpr (Or.inl ⟨h1, h2⟩)⟩
      · obtain ⟨cs, hc, rfl⟩ := List.mem_map.mp hd
        exact ⟨cs, hc, (seq_split (h.wf cs hc) hh (hlo cs hc)).1.mpr (Or.inr h2)⟩
  have later : ∀ v, (∃ cs ∈ css.map (dropHead header), v ∈ seqElems cs) → header < v / 65536 := by
    rintro v ⟨d, hd, h2⟩
    obtain ⟨cs, hc, rfl⟩ := List.mem_map.mp hd
    exact (seq_split (h.wf cs hc) hh (hlo cs hc)).2 h2
  have hZ2 : Enumerates Z2 (fun v => ∃ cs ∈ css.map (dropHead header), v ∈ seqElems cs) := by
    refine ⟨hZ.1.filter _, ?_⟩
    intro v
    simp only [Z2, List.mem_filter, decide_eq_true_eq, hZ.2 v, split v]
    constructor
    · rintro ⟨⟨h1, -⟩ | h1, h2⟩
      · omega
      · exact h1
    · intro h1
      exact ⟨Or.inr h1, later v h1⟩
  have sU : (U.map (header * 65536 + ·)).Pairwise (· < ·) := by
    rw [List.pairwise_map]
    exact ((range_sorted 65536).filter _).imp (fun h => by omega)
  have hsplit : Z = U.map (header * 65536 + ·) ++ Z2 := by
    apply sorted_ext hZ.1
    · refine List.pairwise_append.mpr ⟨sU, hZ2.1, ?_⟩
      intro a ha b hb
      obtain ⟨x, hx, rfl⟩ := List.mem_map.mp ha
      have hx := List.mem_range.mp (List.mem_filter.mp hx).1
      have := later b ((hZ2.2 b).mp hb)
      omega
    · intro v
      refine (hZ.2 v).trans ((split v).trans ?_)
      rw [List.mem_append, hZ2.2 v]
      refine or_congr ?_ Iff.rfl
      rw [List.mem_map]
      constructor
      · rintro ⟨h1, h2⟩
        exact ⟨v % 65536, List.mem_filter.mpr ⟨List.mem_range.mpr (by omega), h2⟩, by omega⟩
      · rintro ⟨x, hx, rfl⟩
        obtain ⟨hx1, hx2⟩ := List.mem_filter.mp hx
        have hx1 := List.mem_range.mp hx1
        refine ⟨by omega, ?_⟩
        rw [show (header * 65536 + x) % 65536 = x by omega]; exact hx2
  exact ⟨hsplit, hZ2⟩

/-- The next slice comes later. -/
theorem IsMin.later {pad : Nat} {m : Mem} {its : List It} {css : List (List Chk)} {header next : Nat}
    (h : ItsOn pad m its css) (hh : header < 65536) (hlo : ∀ cs ∈ css, header ≤ headId cs)
    (hmin : IsMin next 65536 (css.map (dropHead header))) : header < next := by
  rcases hmin.2.2 with h1 | ⟨d, hd, h1⟩
  · omega
  · obtain ⟨cs, hc, rfl⟩ := List.mem_map.mp hd
    have w := h.wf cs hc
    have g := hlo cs hc
    rw [← h1]
    cases cs with
    | nil => exact hh
    | cons c cs =>
      by_cases hid : c.id = header
      · simp only [dropHead, if_pos hid]
        cases cs with
        | nil => exact hh
        | cons d cs =>
          have := w.head_lt d (List.mem_cons_self ..)
          simp only [headId]; omega
      · simp only [dropHead, if_neg hid, headId]
        have : header ≤ c.id := g
        omega

theorem union_many_loop_spec {dbg : Bool} {pad : Nat} {m : Mem} (f : Nat) {its : List It}
    {css : List (List Chk)} {header out : Nat} {s : MScratch} {buf Z : List Nat}
    (h : ItsOn pad m its css) (hs : s.Ok) (hmin : IsMin header 65536 css)
    (hf : 65536 - header < f) (hZ : Enumerates Z (fun v => ∃ cs ∈ css, v ∈ seqElems cs))
    (hcap : out + Z.length ≤ buf.length) :
    ∃ s' buf', union_many_loop dbg m f its header s buf out = .ok (out + Z.length, s', buf') ∧
      s'.Ok ∧ Wrote buf out Z 0 buf' := by
  induction f generalizing its css header out s buf Z with
  | zero => omega
  | succ f ih =>
    unfold union_many_loop
    by_cases hh : header < 65536
    · rw [if_pos hh]
      obtain ⟨-, hlo, hex⟩ := hmin
      have hex : ∃ cs ∈ css, headId cs = header := by
        rcases hex with h | h
        · omega
        · exact h
      obtain ⟨s1, e1, hs1, b1⟩ := merge_loop_spec (dbg := dbg) hh h hs hex
      let P : Nat → Bool := fun x => css.any (headHas header x)
      let U := (List.range 65536).filter P
      let Z2 := Z.filter (fun v => decide (header < v / 65536))
      have hsplit : Z = U.map (header * 65536 + ·) ++ Z2 := (union_slice_split h hh hlo hZ).1
      have hZ2 : Enumerates Z2 (fun v => ∃ cs ∈ css.map (dropHead header), v ∈ seqElems cs) :=
        (union_slice_split h hh hlo hZ).2
      have hlen := congrArg List.length hsplit
      rw [List.length_append, List.length_map] at hlen
      obtain ⟨o1, e2, w1⟩ := decode_bitmap_spec (p := out) (out := buf) (b := header * 65536)
        (b1.bitsAt (n := 1024) (by rw [hs1.1.1]; exact Nat.le_refl _)) (by omega)
        (by show out + U.length ≤ _; omega) (by omega)
      have l1 := w1.length
      obtain ⟨its', next, e3, h', hmin'⟩ := step_loop_spec hh 65536 h
      have hnext : header < next := hmin'.later h hh hlo
      obtain ⟨s2, o2, e4, hs2, w2⟩ := ih (out := out + U.length) (s := s1) (buf := o1) h' hs1 hmin'
        (by omega) hZ2 (by omega)
      refine ⟨s2, o2, ?_, hs2, ?_⟩
      · rw [u32_lt (by omega)]
        simp only [e1, ok_bind]
        have e2' : decode_bitmap (vecWords s1.bitmap) 1024 (header * 65536) buf out
          = .ok (U.length, o1) := e2
        rw [e2']
        simp only [ok_bind, e3, e4, hlen, Nat.add_assoc]
      · rw [hsplit]
        exact Wrote.append w1 (by rw [List.length_map]; exact w2)
    · rw [if_neg hh]
      have hz : Z = [] := by
        rw [List.eq_nil_iff_forall_not_mem]
        intro v hv
        obtain ⟨cs, hc, hv⟩ := (hZ.2 v).mp hv
        have g := hmin.2.1 cs hc
        cases cs with
        | nil => simp [seqElems] at hv
        | cons c cs =>
          have := (h.wf _ hc).head.1
          simp only [headId] at g
          omega
      subst hz
      exact ⟨s, buf, rfl, hs, Wrote.nil _ _ _⟩

theorem min_id_foldl {pad : Nat} {m : Mem} {its : List It} {css : List (List Chk)} (best : Nat)
    (h : ItsOn pad m its css) :
    ∃ n, its.foldlM (fun best it => do
        let j ← it.id m
        return if j < best then j else best) best = Except.ok (ε := Err) n ∧ IsMin n best css := by
  induction its generalizing css best with
  | nil =>
    cases css with
    | nil => exact ⟨best, rfl, Nat.le_refl _, by simp, Or.inl rfl⟩
    | cons cs css => exact absurd h (by simp [ItsOn])
  | cons it its ih =>
    cases css with
    | nil => exact absurd h (by simp [ItsOn])
    | cons cs css =>
      obtain ⟨n, e, m1, m2, m3⟩ := ih (if headId cs < best then headId cs else best) h.2
      refine ⟨n, ?_, ?_, ?_, ?_⟩
      · rw [List.foldlM_cons, h.1.id']
        simp only [ok_bind, pure_ok]
        exact e
      · split at m1 <;> omega
      · intro d hd
        rcases List.mem_cons.mp hd with rfl | hd
        · split at m1 <;> omega
        · exact m2 d hd
      · rcases m3 with m3 | ⟨d, hd, hd'⟩
        · split at m3
          · exact Or.inr ⟨_, List.mem_cons_self .., m3.symm⟩
          · exact Or.inl m3
        · exact Or.inr ⟨d, List.mem_cons_of_mem _ hd, hd'⟩

theorem min_id_spec {pad : Nat} {m : Mem} {its : List It} {css : List (List Chk)} (hne : its ≠ [])
    (h : ItsOn pad m its css) : ∃ n, min_id m its = .ok n ∧ IsMin n 65536 css := by
  cases its with
  | nil => exact absurd rfl hne
  | cons it its =>
    cases css with
    | nil => exact absurd h (by simp [ItsOn])
    | cons cs css =>
      obtain ⟨n, e, m1, m2, m3⟩ := min_id_foldl (headId cs) h.2
      have hc : headId cs ≤ 65536 := by
        cases cs with
        | nil => exact Nat.le_refl _
        | cons c cs => have := h.1.wf.head.1; simp only [headId]; omega
      refine ⟨n, ?_, by omega, ?_, ?_⟩
      · simp only [min_id, h.1.id', ok_bind]
        exact e
      · intro d hd
        rcases List.mem_cons.mp hd with rfl | hd
        · exact m1
        · exact m2 d hd
      · rcases m3 with m3 | ⟨d, hd, hd'⟩
        · exact Or.inr ⟨_, List.mem_cons_self .., m3.symm⟩
        · exact Or.inr ⟨d, List.mem_cons_of_mem _ hd, hd'⟩

/-- `ss` are sequences with the chunks `css`. -/
def SeqsAt (pad : Nat) (m : Mem) : List SSeq → List (List Chk) → Prop
  | [], [] => True
  | s :: ss, cs :: css => SeqAt pad m s cs ∧ SeqsAt pad m ss css
  | _, _ => False

theorem SeqsAt.begin {pad : Nat} {m : Mem} {ss : List SSeq} {css : List (List Chk)}
    (h : SeqsAt pad m ss css) : ItsOn pad m (ss.map SSeq.begin) css := by
  induction ss generalizing css with
  | nil =>
    cases css with
    | nil => trivial
    | cons cs css => exact absurd h (by simp [SeqsAt])
  | cons s ss ih =>
    cases css with
    | nil => exact absurd h (by simp [SeqsAt])
    | cons cs css => exact ⟨h.1.begin, ih h.2⟩

theorem union_many_spec {dbg : Bool} {pad : Nat} {m : Mem} {ss : List SSeq}
    {css : List (List Chk)} {out : Nat} {s : MScratch} {buf Z : List Nat}
    (hne : ss ≠ []) (h : SeqsAt pad m ss css) (hs : s.Ok)
    (hZ : Enumerates Z (fun v => ∃ cs ∈ css, v ∈ seqElems cs))
    (hcap : out + Z.length ≤ buf.length) :
    ∃ s' buf', union_many dbg m ss s buf out = .ok (Z.length, s', buf') ∧
      s'.Ok ∧ Wrote buf out Z 0 buf' := by
  obtain ⟨n, e1, hm⟩ := min_id_spec (by simpa using hne) h.begin
  obtain ⟨s', o, e2, hs', w⟩ := union_many_loop_spec (dbg := dbg) 
    (65537 + ((ss.map SSeq.begin).map It.end_).sum) (out := out) (s := s)
    (buf := buf) h.begin hs hm (by omega) hZ hcap
  refine ⟨s', o, ?_, hs', w⟩
  unfold union_many
  simp only [e1, ok_bind, e2, pure_ok, Nat.add_sub_cancel_left]

end Sliced
