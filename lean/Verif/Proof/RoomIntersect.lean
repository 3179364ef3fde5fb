import Verif.Proof.TailIntersect
/-! # The exact number of output slots that pairwise_intersection needs -/
namespace Sliced

/-! ## Blocks -/

/-- slots written by one step of the vector code with `n` matches -/
def stepNeed (n : Nat) : Nat := if n ≤ 8 then 8 else 16

theorem stepNeed_ge {n : Nat} (h : n ≤ 16) : n ≤ stepNeed n := by
  unfold stepNeed; split <;> omega

theorem intersect_step_room {tab : Nat → List Nat} (ht : TabOk tab) {v_l v_r : List Nat}
    {card_l card_r base size out : Nat} {buf : List Nat} (hlen : v_r.length = 16)
    (hr : ∀ x ∈ v_r, x < 256) (hb : base + 256 ≤ 4294967296) (ho : out ≤ buf.length) :
    Exact (out + stepNeed (inter (v_r.take card_r) (v_l.take card_l)).length ≤ buf.length)
      (intersect_step tab v_l card_l v_r card_r base size buf out)
      (fun v => v.1 = size + (inter (v_r.take card_r) (v_l.take card_l)).length ∧
        Wrote buf out ((inter (v_r.take card_r) (v_l.take card_l)).map (base + ·)) 8 v.2) := by
  generalize hmask : cmpestrm v_l card_l v_r card_r = mask
  have hm : mask < 65536 := hmask ▸ cmpestrm_lt _ _ _ _
  have hin : inter (v_r.take card_r) (v_l.take card_l)
      = ((List.range 16).filter (fun j => mask.testBit j)).map (fun j => v_r.getD j 0) := by
    unfold inter
    rw [take_filter_bits, hlen]
    congr 1
    apply List.filter_congr
    intro j hj
    have hj : j < 16 := List.mem_range.mp hj
    rw [← hmask, cmpestrm_testBit, Bool.eq_iff_iff]
    simp only [Bool.and_eq_true, decide_eq_true_eq]
    constructor
    · rintro ⟨h1, h2⟩
      refine ⟨hj, h1, v_r.getD j 0, ?_, h2⟩
      simp [hlen, hj]
    · rintro ⟨_, h1, y, h2, h3⟩
      refine ⟨h1, ?_⟩
      rw [List.getD_eq_getElem?_getD, h2]
      exact h3
  rw [hin]
  obtain ⟨hT, rest, hrest⟩ := ht mask hm
  generalize hbits : (List.range 16).filter (fun j => mask.testBit j) = bits at *
  have hbl : bits.length ≤ 16 := by rw [← hrest] at hT; simp at hT; omega
  have hb16 : ∀ j ∈ bits, j < 16 := by
    intro j hj; rw [← hbits] at hj; exact List.mem_range.mp (List.mem_filter.mp hj).1
  have hpop : popcount mask = bits.length := by rw [popcount_small hm, hbits]
  generalize hP : pshufb v_r (tab mask) = P
  have hPl : P.length = 16 := by rw [← hP]; unfold pshufb; rw [List.length_map, hT]
  have hPt : P.take bits.length = bits.map (fun j => v_r.getD j 0) := by
    rw [← hP]; unfold pshufb
    rw [← hrest, List.map_append, List.take_left' (by simp)]
    apply List.map_congr_left
    intro j hj
    have := hb16 j hj
    rw [if_neg (by omega), Nat.mod_eq_of_lt this]
  have hPb : ∀ x ∈ P, x < 256 := by
    intro x hx
    rw [← hP] at hx
    unfold pshufb at hx
    obtain ⟨c, _, rfl⟩ := List.mem_map.mp hx
    split
    · omega
    · rename_i hc
      have hc16 : c % 16 < v_r.length := by omega
      rw [List.getD_eq_getElem?_getD, List.getElem?_eq_getElem hc16]
      exact hr _ (List.getElem_mem hc16)
  have hcv : ∀ Q : List Nat, (∀ x ∈ Q, x < 256) → cvtAdd base Q = (Q.take 8).map (base + ·) := by
    intro Q hQ
    unfold cvtAdd
    apply List.map_congr_left
    intro x hx
    have := hQ x (List.mem_of_mem_take hx)
    exact u32_lt (by omega)
  have hml : (bits.map (fun j => v_r.getD j 0)).length = bits.length := List.length_map _
  rw [hml]
  unfold intersect_step storeu stepNeed
  simp only [hmask, hpop, hP]
  have t8 : ((P.take 8).map (base + ·)).length = 8 := by simp [hPl]
  have d8 : ((P.drop 8).map (base + ·)).length = 8 := by simp [hPl]
  rw [hcv P hPb]
  by_cases hc : out + 8 ≤ buf.length
  · obtain ⟨o1, e1, w1⟩ := wrs_of (vs := (P.take 8).map (base + ·)) (out := buf) (p := out)
      (by omega)
    rw [e1]
    simp only [ok_bind]
    have l1 := w1.length
    by_cases h8 : bits.length > 8
    · rw [if_pos h8, if_neg (by omega)]
      have hd : cvtAdd base (P.drop 8 ++ List.replicate 8 0) = (P.drop 8).map (base + ·) := by
        rw [hcv]
        · rw [List.take_left' (by simp [hPl])]
        · intro x hx
          rcases List.mem_append.mp hx with hx | hx
          · exact hPb x (List.mem_of_mem_drop hx)
          · rw [(List.mem_replicate.mp hx).2]; omega
      rw [hd]
      constructor
      · intro hcap
        obtain ⟨o2, e2, w2⟩ := wrs_of (vs := (P.drop 8).map (base + ·)) (out := o1) (p := out + 8)
          (by omega)
        rw [e2]
        refine ⟨_, rfl, rfl, ?_⟩
        have w := Wrote.append w1 (by rw [t8]; exact w2)
        rw [← List.map_append, List.take_append_drop] at w
        rw [← hPt, List.map_take]
        exact w.shrink bits.length 8 (by simp [hPl]; omega) (by simp [hPl]; omega)
      · intro hcap
        rw [wrs_err (by omega) (by omega)]; rfl
    · rw [if_neg h8, if_pos (by omega)]
      refine Exact.of_ok hc ⟨_, rfl, rfl, ?_⟩
      rw [← hPt, show P.take bits.length = (P.take 8).take bits.length by
        rw [List.take_take]; congr 1; omega, List.map_take]
      exact w1.shrink bits.length 8 (by simp [hPl]) (by simp [hPl]; omega)
  · refine ⟨fun h => ?_, fun _ => ?_⟩
    · split at h <;> omega
    · rw [wrs_err ho (by omega)]; rfl

theorem scalar_loop_err {m : Mem} {end_l end_r base out : Nat} (f : Nat) {l r size : Nat}
    {L R buf : List Nat} (hL : L ≠ []) (hR : R ≠ []) (sL : L.Pairwise (· < ·))
    (sR : R.Pairwise (· < ·)) (bL : ∀ v ∈ L, v < 256) (hl : BytesAt m l L) (hr : BytesAt m r R)
    (el : l + L.length = end_l) (er : r + R.length = end_r) (hf : L.length + R.length < f)
    (hb : base + 256 ≤ 4294967296) (ho : out + size ≤ buf.length)
    (hcap : buf.length < out + size + (inter L R).length) :
    scalar_loop m end_l end_r base out f l r size buf = .error .ub := by
  induction f generalizing l r size L R buf with
  | zero => omega
  | succ f ih =>
    obtain ⟨k, R, rfl⟩ := List.exists_cons_of_ne_nil hR
    have hRk : ∀ b ∈ k :: R, k ≤ b := by
      intro b hb
      rcases List.mem_cons.mp hb with rfl | hb
      · omega
      · have := (List.pairwise_cons.mp sR).1 b hb; omega
    obtain ⟨o, e1, s1⟩ := scalar_skip_l_spec (m := m) (r := r) hr.head (end_l - l + 1) hL hl el
      (by omega)
    simp only [scalar_loop, e1, ok_bind]
    cases o with
    | none =>
      have : inter L (k :: R) = [] := by
        unfold inter
        rw [List.filter_eq_nil_iff]
        intro x hx
        have h1 := s1 x hx
        rw [decide_eq_true_eq]
        intro h2
        have := hRk x h2
        omega
      rw [this] at hcap
      simp at hcap
      omega
    | some l' =>
      obtain ⟨pre, v, V, rfl, hpre, hkv, rfl⟩ := s1
      have i1 : inter (pre ++ v :: V) (k :: R) = inter (v :: V) (k :: R) := by
        have := inter_drop_left (key := fun x => x) (f := fun x => [x]) (pre := pre) (A := v :: V)
          (B := k :: R) (sep_singleton _ _)
          (fun a ha b hb => Nat.lt_of_lt_of_le (hpre a ha) (hRk b hb))
        simpa only [flatMap_singleton] using this
      rw [i1] at hcap
      have hl' : BytesAt m (l + pre.length) (v :: V) := by
        have := hl.drop pre.length
        rwa [List.drop_left' rfl] at this
      have sL' : (v :: V).Pairwise (· < ·) := (List.pairwise_append.mp sL).2.1
      have hVv : ∀ b ∈ v :: V, v ≤ b := by
        intro b hb
        rcases List.mem_cons.mp hb with rfl | hb
        · omega
        · have := (List.pairwise_cons.mp sL').1 b hb; omega
      have bL' : ∀ x ∈ v :: V, x < 256 := fun x hx => bL x (by simp [hx])
      simp only [List.length_append, List.length_cons] at el hf er
      obtain ⟨o, e2, s2⟩ := scalar_skip_l_spec (m := m) (r := l + pre.length) (l := r) hl'.head
        (end_r - r + 1) (V := k :: R) (end_l := end_r) (by simp) hr (by simp; omega) (by simp; omega)
      simp only [scalar_skip_r_eq m end_r _ _ r hl'.head, e2, ok_bind]
      cases o with
      | none =>
        have : inter (v :: V) (k :: R) = [] := by
          unfold inter
          rw [List.filter_eq_nil_iff]
          intro x hx
          rw [decide_eq_true_eq]
          intro h2
          have h1 := s2 x h2
          have := hVv x hx
          omega
        rw [this] at hcap
        simp at hcap
        omega
      | some r' =>
        obtain ⟨pre2, w, W, hRW, hpre2, hvw, rfl⟩ := s2
        rw [hRW] at hcap hr sR
        have i2 : inter (v :: V) (pre2 ++ w :: W) = inter (v :: V) (w :: W) := by
          have := inter_drop_right (key := fun x => x) (f := fun x => [x]) (pre := pre2)
            (A := v :: V) (B := w :: W) (sep_singleton _ _)
            (fun a ha b hb => Nat.lt_of_lt_of_le (hpre2 b hb) (hVv a ha))
          simpa only [flatMap_singleton] using this
        rw [i2] at hcap
        have hr' : BytesAt m (r + pre2.length) (w :: W) := by
          have := hr.drop pre2.length
          rwa [List.drop_left' rfl] at this
        have sR' : (w :: W).Pairwise (· < ·) := (List.pairwise_append.mp sR).2.1
        have hlenR : R.length + 1 = pre2.length + (W.length + 1) := by
          have := congrArg List.length hRW
          simpa using this
        simp only [hl'.head, hr'.head, ok_bind]
        by_cases hvw' : v = w
        · subst hvw'
          have i3 : inter (v :: V) (v :: W) = v :: inter V W := by
            have := inter_cons_cons (key := fun x => x) (f := fun x => [x]) (a := v) (b := v)
              (A := V) (B := W) (sep_singleton _ _) rfl (List.pairwise_cons.mp sL').1
              (List.pairwise_cons.mp sR').1
            simp only [flatMap_singleton] at this
            rw [this]
            simp [inter]
          rw [i3] at hcap
          simp only [List.length_cons] at hcap
          have hu : u32 (v + base) = base + v := by
            have := bL' v (by simp)
            rw [u32_lt (by omega)]; omega
          rw [if_pos rfl]
          by_cases hw : out + size < buf.length
          · rw [wr_of hw]
            simp only [ok_bind]
            by_cases c1 : l + pre.length + 1 = end_l
            · have : V = [] := List.length_eq_zero_iff.mp (by omega)
              subst this
              simp [inter] at hcap
              omega
            · rw [if_neg c1]
              by_cases c2 : r + pre2.length + 1 = end_r
              · have : W = [] := List.length_eq_zero_iff.mp (by omega)
                subst this
                rw [inter_nil, List.length_nil] at hcap
                omega
              · rw [if_neg c2]
                exact ih (l := l + pre.length + 1) (r := r + pre2.length + 1)
                  (size := size + 1) (L := V) (R := W)
                  (by intro h0; subst h0; simp at el; omega)
                  (by intro h0; subst h0; simp at hlenR; omega)
                  (List.pairwise_cons.mp sL').2 (List.pairwise_cons.mp sR').2
                  (fun x hx => bL' x (by simp [hx])) hl'.tail hr'.tail (by omega)
                  (by omega) (by omega)
                  (by simp; omega) (by simp; omega)
          · rw [wr_err (by omega)]; rfl
        · rw [if_neg hvw']
          have hp2 : 0 < pre2.length := by
            rcases Nat.eq_zero_or_pos pre2.length with h0 | h0
            · have : pre2 = [] := List.length_eq_zero_iff.mp h0
              subst this
              simp at hRW
              omega
            · exact h0
          exact ih (by simp) (by simp) sL' sR' bL' hl' hr' (by simp; omega) (by simp; omega)
            (by simp; omega) ho hcap


/-- slots that the intersection of two blocks writes -/
def blkNeed (A B : List Nat) : Nat :=
  if A.length < 31 then
    if B.length < 31 then
      if A.length ≤ 16 then
        if B.length ≤ 16 then stepNeed (inter A B).length
        else max (stepNeed (inter (B.take 16) A).length)
          ((inter (B.take 16) A).length + stepNeed (inter (B.drop 16) A).length)
      else if B.length ≤ 16 then max (stepNeed (inter (A.take 16) B).length)
          ((inter (A.take 16) B).length + stepNeed (inter (A.drop 16) B).length)
      else (inter A B).length
    else (inter A.dropLast B).length + 1
  else if B.length < 31 then (inter B.dropLast A).length + 1
  else (inter A B).length

theorem blkNeed_comm {A B : List Nat} (sA : A.Pairwise (· < ·)) (sB : B.Pairwise (· < ·)) :
    blkNeed A B = blkNeed B A := by
  unfold blkNeed
  rw [inter_comm sA sB]
  by_cases h1 : A.length < 31 <;> by_cases h2 : B.length < 31 <;> simp only [h1, h2, if_true, if_false]
  by_cases h3 : A.length ≤ 16 <;> by_cases h4 : B.length ≤ 16 <;> simp only [h3, h4, if_true, if_false]

theorem inter_dropLast {A B : List Nat} :
    (inter A B).length ≤ (inter A.dropLast B).length + 1 := by
  rcases List.eq_nil_or_concat A with rfl | ⟨A, x, rfl⟩
  · simp [inter]
  · rw [List.concat_eq_append, List.dropLast_concat, inter_append_left, List.length_append]
    have := inter_length_le [x] B
    simp at this
    omega

theorem blkNeed_ge {A B : List Nat} (sA : A.Pairwise (· < ·)) (sB : B.Pairwise (· < ·)) :
    (inter A B).length ≤ blkNeed A B := by
  have hs : ∀ U V : List Nat, (inter U V).length
      = (inter (U.take 16) V).length + (inter (U.drop 16) V).length := fun U V => by
    rw [← List.length_append, ← inter_append_left, List.take_append_drop]
  have hi := inter_length_le A B
  unfold blkNeed
  by_cases h1 : A.length < 31 <;> by_cases h2 : B.length < 31 <;> simp only [h1, h2, if_true, if_false]
  · by_cases h3 : A.length ≤ 16 <;> by_cases h4 : B.length ≤ 16 <;> simp only [h3, h4, if_true, if_false]
    · exact stepNeed_ge (by omega)
    · have := hs B A
      rw [inter_comm sA sB]
      have h5 := inter_length_le (B.drop 16) A
      rw [List.length_drop] at h5
      have := stepNeed_ge (n := (inter (B.drop 16) A).length) (by omega)
      omega
    · have := hs A B
      have h5 := inter_length_le (A.drop 16) B
      rw [List.length_drop] at h5
      have := stepNeed_ge (n := (inter (A.drop 16) B).length) (by omega)
      omega
    · exact Nat.le_refl _
  · exact inter_dropLast
  · rw [inter_comm sA sB]; exact inter_dropLast
  · exact Nat.le_refl _

theorem ss_intersect_block_room {dbg : Bool} {tab : Nat → List Nat} (ht : TabOk tab) {m : Mem}
    {l r base out : Nat} {L R buf : List Nat} (hL : L ≠ []) (hR : R ≠ []) (cL : L.length < 31)
    (cR : R.length < 31) (sL : L.Pairwise (· < ·)) (sR : R.Pairwise (· < ·))
    (bL : ∀ v ∈ L, v < 256) (hl : BytesAt m l L) (hr : BytesAt m r R)
    (rd : ¬ (16 < L.length ∧ 16 < R.length) →
      Readable m l (ilane L.length) ∧ Readable m r (ilane R.length))
    (hb : base + 256 ≤ 4294967296) (ho : out ≤ buf.length) :
    Exact (out + blkNeed L R ≤ buf.length)
      (ss_intersect_block dbg tab m l r L.length R.length base buf out)
      (fun v => v.1 = (inter L R).length ∧ Wrote buf out ((inter L R).map (base + ·)) 8 v.2) := by
  have pL := List.length_pos_iff.mpr hL
  have pR := List.length_pos_iff.mpr hR
  have ec := inter_comm sL sR
  unfold ss_intersect_block blkNeed
  rw [cassert_of (by simp; omega), cassert_of (by simp; omega), if_pos cL, if_pos cR]
  simp only [ok_bind]
  have g1 : ∀ n, 16 ≤ ilane n := fun n => by unfold ilane; split <;> omega
  have ll : ¬ (16 < L.length ∧ 16 < R.length) → lddqu m l = .ok (lanes m l) :=
    fun h => lddqu_spec ((rd h).1.mono (n' := 16) (g1 _))
  have lr : ¬ (16 < L.length ∧ 16 < R.length) → lddqu m r = .ok (lanes m r) :=
    fun h => lddqu_spec ((rd h).2.mono (n' := 16) (g1 _))
  have tl := lanes_take hl
  have tr := lanes_take hr
  by_cases c1 : L.length ≤ 16 ∧ R.length ≤ 16
  · rw [if_pos c1, ll (by omega), lr (by omega), if_pos c1.1, if_pos c1.2]
    simp only [ok_bind]
    have := intersect_step_room ht (v_l := lanes m l) (v_r := lanes m r) (card_l := L.length)
      (card_r := R.length) (base := base) (size := 0) (out := out) (buf := buf) (lanes_length _ _)
      (lanes_lt _ _) hb ho
    rwa [tl, tr, List.take_of_length_le c1.1, List.take_of_length_le c1.2, ← ec, Nat.zero_add] at this
  · rw [if_neg c1]
    by_cases c2 : L.length ≤ 16 ∧ R.length > 16
    · rw [if_pos c2, ll (by omega), lr (by omega), if_pos c2.1, if_neg (by omega)]
      simp only [ok_bind]
      have hsplit : inter R L = inter (R.take 16) L ++ inter (R.drop 16) L := by
        rw [← inter_append_left, List.take_append_drop]
      have hlen := congrArg List.length hsplit
      rw [List.length_append] at hlen
      rw [ec]
      have t2 := lanes_take (hr.drop 16)
      rw [List.length_drop, List.take_of_length_le (l := R.drop 16) (by simp; omega)] at t2
      have lr2 : lddqu m (r + 16) = .ok (lanes m (r + 16)) :=
        lddqu_spec ((rd (by omega)).2.shift (k := 16) (n' := 16) (by rw [ilane_large (by omega)]; omega))
      have s1 := intersect_step_room ht (v_l := lanes m l) (v_r := lanes m r)
        (card_l := L.length) (card_r := R.length) (base := base) (size := 0) (out := out)
        (buf := buf) (lanes_length _ _) (lanes_lt _ _) hb ho
      rw [tl, tr, List.take_of_length_le c2.1, Nat.zero_add] at s1
      have hg := stepNeed_ge (n := (inter (R.take 16) L).length)
        (Nat.le_trans (inter_length_le _ _) (by simp; omega))
      by_cases hc : out + stepNeed (inter (R.take 16) L).length ≤ buf.length
      · obtain ⟨⟨n, o1⟩, e1, hn, w1⟩ := s1.1 hc
        dsimp only at hn w1
        subst hn
        have l1 := w1.length
        have s2 := intersect_step_room ht (v_l := lanes m l) (v_r := lanes m (r + 16))
          (card_l := L.length) (card_r := R.length - 16) (base := base)
          (size := (inter (R.take 16) L).length) (out := out + (inter (R.take 16) L).length)
          (buf := o1) (lanes_length _ _) (lanes_lt _ _) hb (by omega)
        rw [tl, t2, List.take_of_length_le c2.1] at s2
        rw [e1]
        simp only [ok_bind, lr2]
        constructor
        · intro h
          obtain ⟨v, e2, hn, w2⟩ := s2.1 (by omega)
          refine ⟨v, e2, by omega, ?_⟩
          rw [hsplit, List.map_append]
          exact Wrote.append w1 (by simpa using w2)
        · intro h
          exact s2.2 (by omega)
      · refine ⟨fun h => by omega, fun _ => ?_⟩
        rw [s1.2 hc]; rfl
    · rw [if_neg c2]
      by_cases c3 : R.length ≤ 16 ∧ L.length > 16
      · rw [if_pos c3, ll (by omega), lr (by omega), if_neg (by omega), if_pos c3.1]
        simp only [ok_bind]
        have hsplit := inter_split_right 16 sR sL
        have hlen := congrArg List.length hsplit
        rw [List.length_append] at hlen
        have q1 := inter_comm (A := L.take 16) (B := R) (sL.sublist (List.take_sublist _ _)) sR
        have q2 := inter_comm (A := L.drop 16) (B := R) (sL.sublist (List.drop_sublist _ _)) sR
        rw [ec, q1, q2]
        have t2 := lanes_take (hl.drop 16)
        rw [List.length_drop, List.take_of_length_le (l := L.drop 16) (by simp; omega)] at t2
        have ll2 : lddqu m (l + 16) = .ok (lanes m (l + 16)) :=
          lddqu_spec ((rd (by omega)).1.shift (k := 16) (n' := 16) (by rw [ilane_large (by omega)]; omega))
        have s1 := intersect_step_room ht (v_l := lanes m l) (v_r := lanes m r)
          (card_l := L.length) (card_r := R.length) (base := base) (size := 0) (out := out)
          (buf := buf) (lanes_length _ _) (lanes_lt _ _) hb ho
        rw [tl, tr, List.take_of_length_le c3.1, Nat.zero_add] at s1
        have hg := stepNeed_ge (n := (inter R (L.take 16)).length)
          (Nat.le_trans (inter_length_le _ _) (by omega))
        by_cases hc : out + stepNeed (inter R (L.take 16)).length ≤ buf.length
        · obtain ⟨⟨n, o1⟩, e1, hn, w1⟩ := s1.1 hc
          dsimp only at hn w1
          subst hn
          have l1 := w1.length
          have s2 := intersect_step_room ht (v_l := lanes m (l + 16)) (v_r := lanes m r)
            (card_l := L.length - 16) (card_r := R.length) (base := base)
            (size := (inter R (L.take 16)).length) (out := out + (inter R (L.take 16)).length)
            (buf := o1) (lanes_length _ _) (lanes_lt _ _) hb (by omega)
          rw [tr, t2, List.take_of_length_le c3.1] at s2
          rw [e1]
          simp only [ok_bind, ll2]
          constructor
          · intro h
            obtain ⟨v, e2, hn, w2⟩ := s2.1 (by omega)
            refine ⟨v, e2, by omega, ?_⟩
            rw [← hsplit, List.map_append]
            exact Wrote.append w1 (by simpa using w2)
          · intro h
            exact s2.2 (by omega)
        · refine ⟨fun h => by omega, fun _ => ?_⟩
          rw [s1.2 hc]; rfl
      · rw [if_neg c3, if_neg (by omega), if_neg (by omega)]
        constructor
        · intro hcap
          obtain ⟨o, e, w⟩ := scalar_loop_spec (m := m) (base := base) (out := out) (size := 0)
            (buf := buf) (end_l := l + L.length) (end_r := r + R.length) (L.length + R.length + 1)
            hL hR sL sR bL hl hr rfl rfl (by omega) hb (by omega)
          refine ⟨_, e, Nat.zero_add _, ?_⟩
          exact Wrote.mono (by simpa using w) (by omega)
        · intro hcap
          exact scalar_loop_err (m := m) (base := base) (out := out) (size := 0)
            (buf := buf) (end_l := l + L.length) (end_r := r + R.length) (L.length + R.length + 1)
            hL hR sL sR bL hl hr rfl rfl (by omega) hb (by omega) (by omega)

theorem ds_intersect_block_loop_room {m : Mem} {l r base out : Nat} {P : Nat → Bool}
    (hl : BitsAt (memWords m l) 4 P) {V : List Nat} {i k : Nat} {buf : List Nat}
    (hV : V ≠ []) (hr : BytesAt m (r + i) V) (bV : ∀ v ∈ V, v < 256) (hb : base + 256 ≤ 4294967296) :
    Exact (out + k + (V.dropLast.filter P).length + 1 ≤ buf.length)
      (ds_intersect_block_loop m l r base out V.length i k buf)
      (fun v => v.1 = k + (V.filter P).length ∧
        Wrote buf (out + k) ((V.filter P).map (base + ·)) 1 v.2) := by
  induction V generalizing i k buf with
  | nil => exact absurd rfl hV
  | cons v V ih =>
    have hv : v < 256 := bV v (by simp)
    have hu : u32 (v + base) = base + v := by rw [u32_lt (by omega)]; omega
    have hct := bitmap_contains_spec hl (v := v) (by omega)
    have hr' : BytesAt m (r + (i + 1)) V := hr.tail
    simp only [List.length_cons, ds_intersect_block_loop, hr.head, ok_bind]
    by_cases ho : out + k < buf.length
    · simp only [wr_of ho, hct, ok_bind, hu]
      have w1 : Wrote buf (out + k) [base + v] 0 (buf.set (out + k) (base + v)) :=
        Wrote.single (by omega)
      have w0 : Wrote buf (out + k) [] 1 (buf.set (out + k) (base + v)) := by
        simpa using w1.shrink 0 1 (by simp) (by simp)
      by_cases hVn : V = []
      · subst hVn
        refine Exact.of_ok (by simp; omega) ?_
        by_cases hP : P v = true
        · simp only [hP, if_true, List.length_nil, ds_intersect_block_loop, List.filter_cons,
            List.filter_nil]
          exact ⟨_, rfl, rfl, w1.mono (by omega)⟩
        · simp only [if_neg hP, List.length_nil, ds_intersect_block_loop, List.filter_cons,
            List.filter_nil]
          exact ⟨_, rfl, rfl, w0⟩
      · rw [List.dropLast_cons_of_ne_nil hVn]
        by_cases hP : P v = true
        · simp only [List.filter_cons, if_pos hP, List.length_cons]
          have := ih (i := i + 1) (k := k + 1) (buf := buf.set (out + k) (base + v)) hVn hr'
            (fun x hx => bV x (by simp [hx]))
          rw [List.length_set] at this
          refine ⟨fun h => ?_, fun h => this.2 (by omega)⟩
          obtain ⟨v', e, hn, w⟩ := this.1 (by omega)
          refine ⟨v', e, by omega, ?_⟩
          rw [List.map_cons]
          exact Wrote.append (L1 := [base + v]) (w1.mono (by omega))
            (by simpa [Nat.add_assoc] using w)
        · simp only [List.filter_cons, if_neg hP, Nat.add_zero]
          have := ih (i := i + 1) (k := k) (buf := buf.set (out + k) (base + v)) hVn hr'
            (fun x hx => bV x (by simp [hx]))
          rw [List.length_set] at this
          refine ⟨fun h => ?_, fun h => this.2 h⟩
          obtain ⟨v', e, hn, w⟩ := this.1 h
          exact ⟨v', e, hn, Wrote.append (L1 := []) w0 (by simpa using w)⟩
    · refine ⟨fun h => by omega, fun _ => ?_⟩
      rw [wr_err (by omega)]; rfl

theorem and_bitmaps_room {W V : Words} {A B : List Nat} {n base out : Nat} {buf : List Nat}
    (hW : BitsAt W n (fun x => decide (x ∈ A))) (hV : BitsAt V n (fun x => decide (x ∈ B)))
    (sA : A.Pairwise (· < ·)) (bA : ∀ x ∈ A, x < 64 * n) (hb : base + 64 * n ≤ 4294967296)
    (hn : 0 < n) (ho : out ≤ buf.length) :
    Exact (out + (inter A B).length ≤ buf.length) (and_bitmaps W V n base buf out)
      (fun v => v.1 = (inter A B).length ∧ Wrote buf out ((inter A B).map (base + ·)) 0 v.2) := by
  constructor
  · intro hcap
    obtain ⟨o, e, w⟩ := and_bitmaps_spec hW hV sA bA hb hn hcap
    exact ⟨_, e, rfl, w⟩
  · intro hcap
    unfold and_bitmaps
    rw [operate_bitmaps_eq]
    exact decode_bitmap_err (hW.and hV) hb hn ho (by rw [and_filter sA bA]; omega)

theorem intersect_blocks_room {dbg : Bool} {tab : Nat → List Nat} (ht : TabOk tab) {m : Mem}
    {lol El lor Er l r base out : Nat} {a b : Blk} {buf : List Nat} (hl : Fence m lol El)
    (hr : Fence m lor Er) (wa : a.WF) (wb : b.WF) (ha : BlkAt 0 m l a) (hb : BlkAt 0 m r b)
    (h1 : lol ≤ l) (h2 : l + a.size ≤ El) (h3 : lor ≤ r) (h4 : r + b.size ≤ Er)
    (hbase : base + 256 ≤ 4294967296) (ho : out ≤ buf.length) :
    Exact (BlkTail El Er l r a b ∧ out + blkNeed a.vals b.vals ≤ buf.length)
      (intersect_blocks dbg tab m l r a.vals.length b.vals.length base buf out)
      (fun v => v.1 = (inter a.vals b.vals).length ∧
        Wrote buf out ((inter a.vals b.vals).map (base + ·)) 8 v.2) := by
  have sa := wa.2.2.1
  have sb := wb.2.2.1
  unfold intersect_blocks
  by_cases ca : a.vals.length < 31 <;> by_cases cb : b.vals.length < 31
  · obtain ⟨k1, -⟩ := ha.sparse ca
    obtain ⟨k3, -⟩ := hb.sparse cb
    have s1 : a.size = a.vals.length := by unfold Blk.size bytes_by_cardinality; rw [if_pos ca]
    have s2 : b.size = b.vals.length := by unfold Blk.size bytes_by_cardinality; rw [if_pos cb]
    rw [s1] at h2; rw [s2] at h4
    by_cases hT : BlkTail El Er l r a b
    · have := ss_intersect_block_room (dbg := dbg) (out := out) (buf := buf) ht wa.2.1 wb.2.1 ca cb
        sa sb wa.2.2.2 k1 k3
        (fun hc => ⟨hl.readable h1 (hT ca cb hc).1, hr.readable h3 (hT ca cb hc).2⟩) hbase ho
      simp only [block_type, ca, cb, if_true]
      exact this.congr ⟨fun h => ⟨hT, h⟩, fun h => h.2⟩
    · refine ⟨fun h => absurd h.1 hT, fun _ => ?_⟩
      by_cases hc : 16 < a.vals.length ∧ 16 < b.vals.length
      · exact absurd (fun _ _ h => absurd hc h) hT
      · have := ss_intersect_block_ub (dbg := dbg) (tab := tab) (base := base) (out := out)
          (buf := buf) hl hr h1 h2 h3 h4 wa.card_pos wb.card_pos ca cb hc
          (fun h => hT (fun _ _ _ => h))
        simpa [block_type, ca, cb] using this
  · obtain ⟨k1, -⟩ := ha.sparse ca
    have k3 := hb.dense cb
    have := ds_intersect_block_loop_room (r := l) (i := 0) (k := 0) (base := base) (out := out)
      (buf := buf) k3 wa.2.1 k1 wa.2.2.2 hbase
    have hT : BlkTail El Er l r a b := fun _ h => absurd h cb
    have hn : blkNeed a.vals b.vals = (inter a.vals.dropLast b.vals).length + 1 := by
      unfold blkNeed; rw [if_pos ca, if_neg cb]
    rw [hn]
    refine ⟨fun h => ?_, fun h => ?_⟩
    · obtain ⟨v, e, hn, w⟩ := this.1 (by have := h.2; unfold inter at this; omega)
      rw [Nat.zero_add] at hn
      refine ⟨v, ?_, hn, Wrote.mono (by simpa [inter] using w) (by omega)⟩
      simpa [block_type, ca, cb, type_sparse, type_dense, block_pair, ds_intersect_block, inter] using e
    · have e := this.2 (fun h' => h ⟨hT, by unfold inter; omega⟩)
      simpa [block_type, ca, cb, type_sparse, type_dense, block_pair, ds_intersect_block, inter] using e
  · obtain ⟨k1, -⟩ := hb.sparse cb
    have k3 := ha.dense ca
    rw [inter_comm sa sb]
    have := ds_intersect_block_loop_room (r := r) (i := 0) (k := 0) (base := base) (out := out)
      (buf := buf) k3 wb.2.1 k1 wb.2.2.2 hbase
    have hT : BlkTail El Er l r a b := fun h => absurd h ca
    have hn : blkNeed a.vals b.vals = (inter b.vals.dropLast a.vals).length + 1 := by
      unfold blkNeed; rw [if_neg ca, if_pos cb]
    rw [hn]
    refine ⟨fun h => ?_, fun h => ?_⟩
    · obtain ⟨v, e, hn, w⟩ := this.1 (by have := h.2; unfold inter at this; omega)
      rw [Nat.zero_add] at hn
      refine ⟨v, ?_, hn, Wrote.mono (by simpa [inter] using w) (by omega)⟩
      simpa [block_type, ca, cb, type_sparse, type_dense, block_pair, ds_intersect_block, inter] using e
    · have e := this.2 (fun h' => h ⟨hT, by unfold inter; omega⟩)
      simpa [block_type, ca, cb, type_sparse, type_dense, block_pair, ds_intersect_block, inter] using e
  · have k1 := ha.dense ca
    have k3 := hb.dense cb
    have hT : BlkTail El Er l r a b := fun h => absurd h ca
    have hn : blkNeed a.vals b.vals = (inter a.vals b.vals).length := by
      unfold blkNeed; rw [if_neg ca, if_neg cb]
    rw [hn]
    have := and_bitmaps_room k1 k3 sa wa.2.2.2 (base := base) (out := out) (buf := buf) (by omega)
      (by omega) ho
    refine ⟨fun h => ?_, fun h => ?_⟩
    · obtain ⟨v, e, hn, w⟩ := this.1 h.2
      refine ⟨v, ?_, hn, w.mono (by omega)⟩
      simpa [block_type, ca, cb, type_sparse, type_dense, block_pair,
        block_size_in_64bit_words] using e
    · have e := this.2 (fun h' => h ⟨hT, h'⟩)
      simpa [block_type, ca, cb, type_sparse, type_dense, block_pair,
        block_size_in_64bit_words] using e

/-! ## Chunks of lists of blocks -/

/-- number of elements of `Z` below `v` -/
def under (Z : List Nat) (v : Nat) : Nat := (Z.filter (fun x => decide (x < v))).length

theorem under_append (A B : List Nat) (v : Nat) : under (A ++ B) v = under A v + under B v := by
  unfold under; rw [List.filter_append, List.length_append]

theorem under_all {A : List Nat} {v : Nat} (h : ∀ x ∈ A, x < v) : under A v = A.length := by
  unfold under; rw [List.filter_eq_self.mpr]; simpa using h

theorem under_none {A : List Nat} {v : Nat} (h : ∀ x ∈ A, v ≤ x) : under A v = 0 := by
  unfold under
  rw [List.length_eq_zero_iff, List.filter_eq_nil_iff]
  intro x hx; have := h x hx; simp; omega

theorem Wrote.fits {out out' L : List Nat} {p k : Nat} (h : Wrote out p L k out')
    (hp : p ≤ out.length) : p + L.length ≤ out.length := by
  rcases Nat.eq_zero_or_pos L.length with h0 | h0
  · omega
  · have := h.2.2.1 (L.length - 1) (by omega)
    rw [List.getElem?_eq_getElem (show L.length - 1 < L.length by omega)] at this
    have := (List.getElem?_eq_some_iff.mp this).1
    rw [h.1] at this
    omega

theorem blkElems_ge {bs : List Blk} {k : Nat} (h : ∀ b ∈ bs, k ≤ b.id) :
    ∀ x ∈ blkElems bs, 256 * k ≤ x := by
  intro x hx
  unfold blkElems at hx
  obtain ⟨b, hb, hx⟩ := List.mem_flatMap.mp hx
  unfold Blk.elems at hx
  obtain ⟨y, _, rfl⟩ := List.mem_map.mp hx
  have := h b hb
  omega

theorem ss_intersect_chunk_loop_room {dbg : Bool} {tab : Nat → List Nat} (ht : TabOk tab) {m : Mem}
    {lol El lor Er end_l end_r base cap : Nat} {P Q O : Nat → Nat} (fl : Fence m lol El)
    (fr : Fence m lor Er) (f : Nat) {l dl r dr tmp : Nat} {L R : List Blk} {buf : List Nat}
    (hL : L ≠ []) (hR : R ≠ []) (wL : BlocksWF L) (wR : BlocksWF R) (al : BlocksAt 0 m l dl L)
    (ar : BlocksAt 0 m r dr R) (pl : BlksPlaced P dl L) (pr : BlksPlaced Q dr R)
    (b1 : lol ≤ dl) (b2 : dl + blkBytes L ≤ El) (b3 : lor ≤ dr) (b4 : dr + blkBytes R ≤ Er)
    (el : l + 2 * L.length = end_l) (er : r + 2 * R.length = end_r)
    (hf : L.length + R.length < f) (hb : base + 65536 ≤ 4294967296)
    (hO : ∀ a ∈ L, ∀ b ∈ R, a.id = b.id →
      O a.id = tmp + under (inter (blkElems L) (blkElems R)) (256 * a.id))
    (hcap : buf.length = cap) (ho : tmp ≤ cap) :
    Exact (Pairs Blk.id (fun a b => BlkTail El Er (P a.id) (Q b.id) a b ∧
        O a.id + blkNeed a.vals b.vals ≤ cap) L R)
      (ss_intersect_chunk_loop dbg tab m end_l end_r base f l dl r dr buf tmp)
      (fun v => v.1 = tmp + (inter (blkElems L) (blkElems R)).length ∧
        Wrote buf tmp ((inter (blkElems L) (blkElems R)).map (base + ·)) 8 v.2) := by
  induction f generalizing l dl r dr tmp L R buf with
  | zero => omega
  | succ f ih =>
    obtain ⟨k, R, rfl⟩ := List.exists_cons_of_ne_nil hR
    have hRk := wR.ge_head
    obtain ⟨o, e1, s1⟩ := skip_lower_blocks_spec (m := m) (q := r) ar.1 (end_l - l + 1) hL wL al el
      (by omega)
    simp only [ss_intersect_chunk_loop, e1, ok_bind]
    match o, s1 with
    | none, s1 =>
      have hne : ∀ a ∈ L, ∀ b ∈ k :: R, a.id ≠ b.id := fun a ha b hb => by
        have := s1 a ha; have := hRk b hb; omega
      have : inter (blkElems L) (blkElems (k :: R)) = [] := inter_flat_nil (blk_sep wL wR) hne
      rw [this]
      exact Exact.of_ok (pairs_none hne) ⟨_, rfl, rfl, Wrote.nil _ _ _⟩
    | some (l', dl'), ⟨pre, v, V, hLV, hpre, hkv, hl', al', hdl⟩ =>
      subst hLV
      have i1 : inter (blkElems (pre ++ v :: V)) (blkElems (k :: R))
          = inter (blkElems (v :: V)) (blkElems (k :: R)) :=
        inter_drop_left (blk_sep wL wR)
          (fun a ha b hb => Nat.lt_of_lt_of_le (hpre a ha) (hRk b hb))
      rw [i1] at hO ⊢
      have wL' := wL.append_right
      have hVv := wL'.ge_head
      have pl' := pl.append
      rw [← hdl] at pl'
      rw [blkBytes_append] at b2
      refine Exact.congr ?_ (pairs_drop_left (P := pre) (fun a ha b hb => by
        have := hpre a ha; have := hRk b hb; omega))
      replace hO := fun a ha b hb e => hO a (List.mem_append.mpr (Or.inr ha)) b hb e
      simp only [List.length_append, List.length_cons] at el hf er
      obtain ⟨o, e2, s2⟩ := skip_lower_blocks_spec (m := m) (q := l') (p := r) (d := dr) al'.1
        (end_r - r + 1) (bs := k :: R) (end_p := end_r) (by simp) wR ar (by simp; omega)
        (by simp; omega)
      simp only [e2, ok_bind]
      match o, s2 with
      | none, s2 =>
        have hne : ∀ a ∈ v :: V, ∀ b ∈ k :: R, a.id ≠ b.id := fun a ha b hb => by
          have := s2 b hb; have := hVv a ha; omega
        have : inter (blkElems (v :: V)) (blkElems (k :: R)) = [] :=
          inter_flat_nil (blk_sep wL' wR) hne
        rw [this]
        exact Exact.of_ok (pairs_none hne) ⟨_, rfl, rfl, Wrote.nil _ _ _⟩
      | some (r', dr'), ⟨pre2, w, W, hRW, hpre2, hvw, hr', ar', hdr⟩ =>
        have hlenR : R.length + 1 = pre2.length + (W.length + 1) := by
          have := congrArg List.length hRW
          simpa using this
        rw [hRW] at hO ar wR pr b4 ⊢
        have i2 : inter (blkElems (v :: V)) (blkElems (pre2 ++ w :: W))
            = inter (blkElems (v :: V)) (blkElems (w :: W)) :=
          inter_drop_right (blk_sep wL' wR)
            (fun a ha b hb => Nat.lt_of_lt_of_le (hpre2 b hb) (hVv a ha))
        rw [i2] at hO ⊢
        have pr' := pr.append
        rw [← hdr] at pr'
        rw [blkBytes_append] at b4
        refine Exact.congr ?_ (pairs_drop_right (P := pre2) (fun b hb a ha => by
          have := hpre2 b hb; have := hVv a ha; omega))
        replace hO := fun a ha b hb e => hO a ha b (List.mem_append.mpr (Or.inr hb)) e
        have wR' := wR.append_right
        simp only [al'.1, ar'.1, ok_bind]
        by_cases hvw' : v.id = w.id
        · have i3 : inter (blkElems (v :: V)) (blkElems (w :: W))
              = (inter v.vals w.vals).map (v.id * 256 + ·) ++ inter (blkElems V) (blkElems W) := by
            have := inter_cons_cons (blk_sep wL' wR') hvw' wL'.head_lt wR'.head_lt
            rw [← inter_map_add]
            rw [show w.vals.map (v.id * 256 + ·) = w.elems by rw [hvw']; rfl]
            exact this
          have hO1 : O v.id = tmp := by
            rw [hO v List.mem_cons_self w List.mem_cons_self hvw', under_none, Nat.add_zero]
            intro x hx
            exact blkElems_ge hVv x (mem_inter.mp hx).1
          have hO2 : ∀ a ∈ V, ∀ b ∈ W, a.id = b.id → O a.id = tmp + (inter v.vals w.vals).length
              + under (inter (blkElems V) (blkElems W)) (256 * a.id) := by
            intro a ha b hb e
            rw [hO a (List.mem_cons_of_mem _ ha) b (List.mem_cons_of_mem _ hb) e, i3, under_append,
              under_all, List.length_map, Nat.add_assoc]
            intro x hx
            obtain ⟨y, hy, rfl⟩ := List.mem_map.mp hx
            have := wL'.head.2.2.2 y (mem_inter.mp hy).1
            have := wL'.head_lt a ha
            omega
          rw [i3, List.length_append, List.length_map]
          rw [blkBytes_cons] at b2 b4
          have hid := wL'.head.1
          have hu : u32 (base + v.id * 256) = base + v.id * 256 := u32_lt (by omega)
          have cv := wL'.head.card_pos
          have cw := wR'.head.card_pos
          obtain ⟨t1, t2⟩ := intersect_blocks_room (dbg := dbg) ht fl fr wL'.head wR'.head al'.2.2.1
            ar'.2.2.1 (by omega) (by omega) (by omega) (by omega) (base := base + v.id * 256)
            (out := tmp) (buf := buf) (by omega) (by omega)
          rw [hcap] at t1 t2
          refine Exact.congr ?_ (pairs_cons hvw' wL'.head_lt wR'.head_lt)
          rw [pl'.1, pr'.1, hO1]
          have hmap : (inter v.vals w.vals).map (base + v.id * 256 + ·)
              = ((inter v.vals w.vals).map (v.id * 256 + ·)).map (base + ·) := by
            rw [List.map_map]
            apply List.map_congr_left
            intro x _
            simp only [Function.comp]; omega
          rw [if_pos hvw']
          simp only [al'.2.1, ar'.2.1, ok_bind, Nat.sub_add_cancel cv, Nat.sub_add_cancel cw, hu]
          by_cases hT : BlkTail El Er dl' dr' v w ∧ tmp + blkNeed v.vals w.vals ≤ cap
          · obtain ⟨⟨n1, o1⟩, e3, hn, w3⟩ := t1 hT
            dsimp only at hn w3
            subst hn
            have lo := w3.length
            rw [hmap] at w3
            have hfit := w3.fits (by omega)
            simp only [List.length_map] at hfit
            simp only [e3, ok_bind]
            by_cases c : l' + 2 = end_l ∨ r' + 2 = end_r
            · have hnil : V = [] ∨ W = [] := by
                rcases c with c | c
                · exact Or.inl (List.length_eq_zero_iff.mp (by omega))
                · exact Or.inr (List.length_eq_zero_iff.mp (by omega))
              have : inter (blkElems V) (blkElems W) = [] := by
                rcases hnil with rfl | rfl
                · rfl
                · exact inter_nil _
              rw [if_pos c, this, List.append_nil]
              refine Exact.of_ok ⟨hT, pairs_none ?_⟩ ⟨_, rfl, rfl, w3⟩
              rcases hnil with rfl | rfl
              · exact fun a ha => nomatch ha
              · exact fun a _ b hb => nomatch hb
            · rw [if_neg c]
              have := ih (l := l' + 2) (dl := dl' + v.size) (r := r' + 2)
                (dr := dr' + w.size) (tmp := tmp + (inter v.vals w.vals).length) (L := V) (R := W)
                (buf := o1) (by intro h0; subst h0; simp at el; omega)
                (by intro h0; subst h0; simp at hlenR; omega) wL'.tail wR'.tail al'.2.2.2 ar'.2.2.2
                pl'.2 pr'.2 (by omega) (by omega) (by omega) (by omega)
                (by omega) (by omega) (by omega) hO2 (by omega) (by omega)
              unfold Blk.size at this
              refine ⟨fun h => ?_, fun h => this.2 (fun h' => h ⟨hT, h'⟩)⟩
              obtain ⟨v', e4, hn, w4⟩ := this.1 h.2
              refine ⟨v', e4, by rw [hn, Nat.add_assoc], ?_⟩
              rw [List.map_append]
              exact Wrote.append w3 (by simpa using w4)
          · exact ⟨fun h => absurd h.1 hT, fun _ => by rw [t2 hT]; rfl⟩
        · rw [if_neg hvw']
          have hp2 : 0 < pre2.length := by
            rcases Nat.eq_zero_or_pos pre2.length with h0 | h0
            · have : pre2 = [] := List.length_eq_zero_iff.mp h0
              subst this
              simp only [List.nil_append, List.cons.injEq] at hRW
              rw [hRW.1] at hkv
              omega
            · exact h0
          exact ih (by simp) (by simp) wL' wR' al' ar' pl' pr' (by omega) (by omega) (by omega)
            (by omega) (by simp; omega) (by simp; omega) (by simp; omega) hO hcap ho

theorem ss_intersect_chunk_room {dbg : Bool} {tab : Nat → List Nat} (ht : TabOk tab) {m : Mem}
    {lol El lor Er base l r out : Nat} {L R : List Blk} {buf : List Nat} (fl : Fence m lol El)
    (fr : Fence m lor Er) (hL : L ≠ []) (hR : R ≠ []) (wL : BlocksWF L) (wR : BlocksWF R)
    (al : BlocksAt 0 m l (l + 2 * L.length) L) (ar : BlocksAt 0 m r (r + 2 * R.length) R)
    (b1 : lol ≤ l) (b2 : l + (2 * L.length + blkBytes L) ≤ El) (b3 : lor ≤ r)
    (b4 : r + (2 * R.length + blkBytes R) ≤ Er) (hb : base + 65536 ≤ 4294967296)
    (ho : out ≤ buf.length) :
    Exact (Pairs Blk.id (fun a b => BlkTail El Er (blkPos (l + 2 * L.length) L a.id)
        (blkPos (r + 2 * R.length) R b.id) a b ∧
        out + under (inter (blkElems L) (blkElems R)) (256 * a.id) + blkNeed a.vals b.vals
          ≤ buf.length) L R)
      (ss_intersect_chunk dbg tab m l r L.length R.length base buf out)
      (fun v => v.1 = (inter (blkElems L) (blkElems R)).length ∧
        Wrote buf out ((inter (blkElems L) (blkElems R)).map (base + ·)) 8 v.2) := by
  have h1 := List.length_pos_iff.mpr hL
  have h2 := wL.length_le
  have h3 := List.length_pos_iff.mpr hR
  have h4 := wR.length_le
  obtain ⟨t1, t2⟩ := ss_intersect_chunk_loop_room (dbg := dbg)
    (O := fun k => out + under (inter (blkElems L) (blkElems R)) (256 * k)) ht fl fr (end_l := l + 2 * L.length)
    (end_r := r + 2 * R.length) (tmp := out) (buf := buf)
    (L.length + R.length + 1) hL hR wL wR al ar (blksPlaced_blkPos wL) (blksPlaced_blkPos wR)
    (by omega) (by omega) (by omega) (by omega) rfl rfl (by omega) hb
    (fun _ _ _ _ _ => rfl) rfl ho
  unfold ss_intersect_chunk
  rw [cassert_of (by simp; omega), cassert_of (by simp; omega)]
  simp only [ok_bind, show L.length * 2 = 2 * L.length by omega,
    show R.length * 2 = 2 * R.length by omega]
  constructor
  · intro hT
    obtain ⟨⟨n, o⟩, e, hn, w⟩ := t1 hT
    dsimp only at hn w
    subst hn
    exact ⟨_, by rw [e]; rfl, Nat.add_sub_cancel_left _ _, w⟩
  · intro hT
    rw [t2 hT]; rfl

/-! ## Chunks -/

theorem decode_full_room {base p : Nat} {out : List Nat} (hb : base + 65536 ≤ 4294967296)
    (hp : p ≤ out.length) :
    Exact (p + 65536 ≤ out.length) (decode_full_chunk base out p)
      (fun v => v.1 = 65536 ∧ Wrote out p ((List.range 65536).map (base + ·)) 0 v.2) := by
  constructor
  · intro hcap
    obtain ⟨o, e, w⟩ := decode_full_chunk_spec (p := p) (out := out) hb hcap
    exact ⟨_, e, rfl, w⟩
  · intro hcap
    unfold decode_full_chunk
    rw [wrs_err hp (by rw [List.length_map, List.length_range]; unfold chunk_size; omega)]; rfl

theorem decode_dense_room {m : Mem} {dp base p : Nat} {vs out : List Nat} (hw : (Body.dense vs).WF)
    (h : BitsAt (memWords m dp) 1024 (fun x => decide (x ∈ vs))) (hb : base + 65536 ≤ 4294967296)
    (hp : p ≤ out.length) :
    Exact (p + vs.length ≤ out.length) (decode_bitmap (memWords m dp) 1024 base out p)
      (fun v => v.1 = vs.length ∧ Wrote out p (vs.map (base + ·)) 0 v.2) := by
  constructor
  · intro hcap
    obtain ⟨o, e, w⟩ := decode_dense_spec hw h hb hcap
    exact ⟨_, e, rfl, w⟩
  · intro hcap
    exact decode_bitmap_err h (by omega) (by omega) hp (by rw [dense_filter hw]; omega)

theorem ds_intersect_chunk_room {dbg : Bool} {pad : Nat} {m : Mem} {base l r out : Nat}
    {vs : List Nat} {R : List Blk} {x buf : List Nat} (hv : (Body.dense vs).WF)
    (al : BitsAt (memWords m l) 1024 (fun y => decide (y ∈ vs))) (hR : R ≠ []) (wR : BlocksWF R)
    (ar : BlocksAt pad m r (r + 2 * R.length) R) (hx : x.length = 1024)
    (hb : base + 65536 ≤ 4294967296) (ho : out ≤ buf.length) :
    Exact (out + (inter vs (blkElems R)).length ≤ buf.length)
      (ds_intersect_chunk dbg m l r R.length base x buf out)
      (fun v => v.1 = (inter vs (blkElems R)).length ∧ v.2.1.length = 1024 ∧
        Wrote buf out ((inter vs (blkElems R)).map (base + ·)) 0 v.2.2) := by
  constructor
  · intro hcap
    obtain ⟨x', o, e, lx, w⟩ := ds_intersect_chunk_spec (dbg := dbg) hv al hR wR ar hx hb hcap
    exact ⟨_, e, rfl, lx, w⟩
  · intro hcap
    have hz : BufIs (List.replicate x.length 0) (fun _ => false) :=
      bufIs_replicate (by omega) (fun j _ _ => by simp)
    obtain ⟨x', e1, l1, b1⟩ := uncompress_sparse_chunk_spec (dbg := dbg)
      (out := List.replicate x.length 0)
      (p := 0) hR wR ar hz (by rw [List.length_replicate]; omega) (fun _ _ _ => rfl)
    rw [List.length_replicate, hx] at l1
    have b2 := b1.bitsAt (n := 1024) (by omega)
    have b3 : BitsAt (vecWords x') 1024 (fun y => decide (y ∈ blkElems R)) := by
      simpa using b2
    have e2 := (and_bitmaps_room al b3 hv.2.1 hv.2.2 (base := base) (out := out)
      (buf := buf) hb (by omega) ho).2 hcap
    unfold ds_intersect_chunk
    simp only [e1, ok_bind]
    have : chunk_size_in_64bit_words = 1024 := rfl
    rw [this, e2]
    rfl

/-- the slots that are written for two chunks of the same slice exist -/
def BodyRoom (cap pos : Nat) : Body → Body → Prop
  | .sparse as, .sparse bs => Pairs Blk.id (fun a b =>
      pos + under (inter (blkElems as) (blkElems bs)) (256 * a.id) + blkNeed a.vals b.vals ≤ cap)
      as bs
  | .sparse as, .full => pos + blocksNeed as ≤ cap
  | .full, .sparse bs => pos + blocksNeed bs ≤ cap
  | a, b => pos + (inter a.vals b.vals).length ≤ cap

theorem pairs_and {α : Type} {key : α → Nat} {C D : α → α → Prop} {A B : List α} :
    Pairs key (fun a b => C a b ∧ D a b) A B ↔ Pairs key C A B ∧ Pairs key D A B :=
  ⟨fun h => ⟨fun a ha b hb e => (h a ha b hb e).1, fun a ha b hb e => (h a ha b hb e).2⟩,
    fun h a ha b hb e => ⟨h.1 a ha b hb e, h.2 a ha b hb e⟩⟩

/-- defined in exactly the same cases, after the result has been repacked -/
theorem Exact.pack {α β : Type} {T T' : Prop} {x : Res α} {y : Res β} {S : α → Prop}
    {S' : β → Prop} (g : α → β) (h : Exact T x S) (ht : T ↔ T')
    (h1 : ∀ v, x = .ok v → y = .ok (g v)) (h2 : x = .error .ub → y = .error .ub)
    (hs : ∀ v, S v → S' (g v)) : Exact T' y S' := by
  constructor
  · intro t
    obtain ⟨v, e, s⟩ := h.1 (ht.mpr t)
    exact ⟨g v, h1 v e, hs v s⟩
  · intro t
    exact h2 (h.2 (fun t' => t (ht.mp t')))

theorem intersect_chunks_room {dbg : Bool} {tab : Nat → List Nat} (ht : TabOk tab) {m : Mem}
    {lol El lor Er : Nat} (fl : Fence m lol El) (fr : Fence m lor Er)
    {Bl Br : Nat → Chk → Prop} {il ir : It} {a b : Chk} {L R : List Chk} {base out : Nat}
    {x buf : List Nat} (hl : ItOnP Bl m il (a :: L)) (hr : ItOnP Br m ir (b :: R))
    (ha : BodyIn m lol El il.data a.body) (hb' : BodyIn m lor Er ir.data b.body)
    (hb : base + 65536 ≤ 4294967296) (hx : x.length = 1024) (ho : out ≤ buf.length) :
    Exact (BodyTail El Er il.data ir.data a.body b.body ∧ BodyRoom buf.length out a.body b.body)
      (intersect_chunks dbg tab m il ir base x buf out)
      (fun v => v.1 = (inter a.body.vals b.body.vals).length ∧ v.2.1.length = 1024 ∧
        Wrote buf out ((inter a.body.vals b.body.vals).map (base + ·)) 23 v.2.2) := by
  have wa := hl.wf.head.2
  have wb := hr.wf.head.2
  have sa := wa.sorted
  have sb := wb.sorted
  have ba := wa.bound
  have bb := wb.bound
  have c1024 : chunk_size_in_64bit_words = 1024 := rfl
  obtain ⟨ha, la, ua⟩ := ha
  obtain ⟨hb', lb, ub⟩ := hb'
  have keep : ∀ (Z : List Nat) (k : Nat), k ≤ 23 → ∀ v : Nat × List Nat,
      (v.1 = Z.length ∧ Wrote buf out (Z.map (base + ·)) k v.2) →
      ((v.1, x, v.2).1 = Z.length ∧ (v.1, x, v.2).2.1.length = 1024 ∧
        Wrote buf out (Z.map (base + ·)) 23 (v.1, x, v.2).2.2) :=
    fun Z k hk v h => ⟨h.1, hx, h.2.mono hk⟩
  unfold intersect_chunks
  cases ea : a.body with
  | full =>
    rw [hl.type_full ea]
    rw [ea] at wa sa ba ha
    cases eb : b.body with
    | full =>
      rw [hr.type_full eb]
      have hv : inter Body.full.vals Body.full.vals = List.range 65536 :=
        inter_full_right (fun x hx => List.mem_range.mp hx)
      have hroom : BodyRoom buf.length out .full .full ↔ out + 65536 ≤ buf.length := by
        show out + (inter Body.full.vals Body.full.vals).length ≤ buf.length ↔ _
        rw [hv, List.length_range]
      rw [hv]
      refine (decode_full_room hb ho).pack (fun v => (v.1, x, v.2))
        ⟨fun h => ⟨trivial, hroom.mpr h⟩, fun h => hroom.mp h.2⟩ ?_ ?_
        (fun v h => keep (List.range 65536) 0 (by omega) v ⟨by rw [h.1, List.length_range], h.2⟩)
      · intro v e
        simp [type_sparse, type_dense, chunk_pair, e, type_full]
      · intro e
        simp [type_sparse, type_dense, chunk_pair, e, type_full]
    | dense vs =>
      rw [hr.type_dense eb]
      rw [eb] at wb sb bb hb'
      have hv : inter Body.full.vals (Body.dense vs).vals = vs := inter_full_left sb bb
      have hroom : BodyRoom buf.length out .full (.dense vs) ↔ out + vs.length ≤ buf.length := by
        show out + (inter Body.full.vals (Body.dense vs).vals).length ≤ buf.length ↔ _
        rw [hv]
      rw [hv]
      refine (decode_dense_room wb hb' hb ho).pack (fun v => (v.1, x, v.2))
        ⟨fun h => ⟨trivial, hroom.mpr h⟩, fun h => hroom.mp h.2⟩ ?_ ?_
        (fun v h => keep vs 0 (by omega) v h)
      · intro v e
        simp [type_sparse, type_dense, chunk_pair, e, type_full, c1024]
      · intro e
        simp [type_sparse, type_dense, chunk_pair, e, type_full, c1024]
    | sparse bs =>
      rw [hr.type_sparse eb]
      have hbl := hr.blocks_sparse eb
      rw [eb] at wb sb bb hb' ub
      have hv : inter Body.full.vals (Body.sparse bs).vals = blkElems bs := inter_full_left sb bb
      rw [hv]
      obtain ⟨t1, t2⟩ := decode_sparse_chunk_tail (dbg := dbg) (p := out) (out := buf) fr wb.1 wb.2
        hb' lb ub hb ho
      constructor
      · intro hT
        obtain ⟨o, e, w⟩ := t1 ⟨hT.2, hT.1⟩
        refine ⟨((blkElems bs).length, x, o), ?_, rfl, hx, w⟩
        simp [type_sparse, type_dense, chunk_pair, e, type_full, hbl]
      · intro hT
        have e := t2 (fun h => hT ⟨h.2, h.1⟩)
        simp [type_sparse, type_dense, chunk_pair, e, type_full, hbl]
  | dense us =>
    rw [hl.type_dense ea]
    rw [ea] at wa sa ba ha
    cases eb : b.body with
    | full =>
      rw [hr.type_full eb]
      have hv : inter (Body.dense us).vals Body.full.vals = us := inter_full_right ba
      have hroom : BodyRoom buf.length out (.dense us) .full ↔ out + us.length ≤ buf.length := by
        show out + (inter (Body.dense us).vals Body.full.vals).length ≤ buf.length ↔ _
        rw [hv]
      rw [hv]
      refine (decode_dense_room wa ha hb ho).pack (fun v => (v.1, x, v.2))
        ⟨fun h => ⟨trivial, hroom.mpr h⟩, fun h => hroom.mp h.2⟩ ?_ ?_
        (fun v h => keep us 0 (by omega) v h)
      · intro v e
        simp [type_sparse, type_dense, chunk_pair, e, type_full, c1024]
      · intro e
        simp [type_sparse, type_dense, chunk_pair, e, type_full, c1024]
    | dense vs =>
      rw [hr.type_dense eb]
      rw [eb] at wb sb bb hb'
      refine (and_bitmaps_room ha hb' sa ba hb (by omega) ho).pack (fun v => (v.1, x, v.2))
        ⟨fun h => ⟨trivial, h⟩, fun h => h.2⟩ ?_ ?_
        (fun v h => keep (inter us vs) 0 (by omega) v h)
      · intro v e
        simp [type_sparse, type_dense, chunk_pair, e, type_full, c1024]
      · intro e
        simp [type_sparse, type_dense, chunk_pair, e, type_full, c1024]
    | sparse bs =>
      rw [hr.type_sparse eb]
      have hbl := hr.blocks_sparse eb
      rw [eb] at wb sb bb hb'
      refine (ds_intersect_chunk_room (dbg := dbg) wa ha wb.1 wb.2 hb' hx hb ho).pack (fun v => v)
        ⟨fun h => ⟨trivial, h⟩, fun h => h.2⟩ ?_ ?_
        (fun v h => ⟨h.1, h.2.1, h.2.2.mono (by omega)⟩)
      · intro v e
        simp [type_sparse, type_dense, chunk_pair, e, type_full, hbl]
      · intro e
        simp [type_sparse, type_dense, chunk_pair, e, type_full, hbl]
  | sparse as =>
    rw [hl.type_sparse ea]
    have hal := hl.blocks_sparse ea
    rw [ea] at wa sa ba ha ua
    cases eb : b.body with
    | full =>
      rw [hr.type_full eb]
      have hv : inter (Body.sparse as).vals Body.full.vals = blkElems as := inter_full_right ba
      rw [hv]
      obtain ⟨t1, t2⟩ := decode_sparse_chunk_tail (dbg := dbg) (p := out) (out := buf) fl wa.1 wa.2
        ha la ua hb ho
      constructor
      · intro hT
        obtain ⟨o, e, w⟩ := t1 ⟨hT.2, hT.1⟩
        refine ⟨((blkElems as).length, x, o), ?_, rfl, hx, w⟩
        simp [type_sparse, type_dense, chunk_pair, e, type_full, hal]
      · intro hT
        have e := t2 (fun h => hT ⟨h.2, h.1⟩)
        simp [type_sparse, type_dense, chunk_pair, e, type_full, hal]
    | dense vs =>
      rw [hr.type_dense eb]
      rw [eb] at wb sb bb hb'
      have hroom : BodyRoom buf.length out (.sparse as) (.dense vs)
          ↔ out + (inter vs (blkElems as)).length ≤ buf.length := by
        show out + (inter (Body.sparse as).vals (Body.dense vs).vals).length ≤ buf.length ↔ _
        rw [inter_comm sa sb]; exact Iff.rfl
      rw [inter_comm sa sb]
      refine (ds_intersect_chunk_room (dbg := dbg) wb hb' wa.1 wa.2 ha hx hb ho).pack (fun v => v)
        ⟨fun h => ⟨trivial, hroom.mpr h⟩, fun h => hroom.mp h.2⟩ ?_ ?_
        (fun v h => ⟨h.1, h.2.1, h.2.2.mono (by omega)⟩)
      · intro v e
        simp [type_sparse, type_dense, chunk_pair, e, type_full, hal]
      · intro e
        simp [type_sparse, type_dense, chunk_pair, e, type_full, hal]
    | sparse bs =>
      rw [hr.type_sparse eb]
      have hbl := hr.blocks_sparse eb
      rw [eb] at wb sb bb hb' ub
      by_cases hlt : as.length < bs.length
      · refine (ss_intersect_chunk_room (dbg := dbg) ht fl fr wa.1 wb.1 wa.2 wb.2 ha hb'
          la ua lb ub hb ho).pack (fun v => (v.1, x, v.2)) pairs_and ?_ ?_
          (fun v h => keep (inter (blkElems as) (blkElems bs)) 8 (by omega) v h)
        · intro v e
          simp [type_sparse, chunk_pair, e, hbl, hal, hlt]
        · intro e
          simp [type_sparse, chunk_pair, e, hbl, hal, hlt]
      · have hroom : Pairs Blk.id (fun b a => out + under (inter (blkElems bs) (blkElems as))
            (256 * b.id) + blkNeed b.vals a.vals ≤ buf.length) bs as
            ↔ BodyRoom buf.length out (.sparse as) (.sparse bs) := by
          have e1 : inter (blkElems as) (blkElems bs) = inter (blkElems bs) (blkElems as) :=
            inter_comm sa sb
          show _ ↔ Pairs Blk.id (fun a b => out + under (inter (blkElems as) (blkElems bs))
            (256 * a.id) + blkNeed a.vals b.vals ≤ buf.length) as bs
          rw [e1]
          constructor
          · intro h a ha b hb e
            rw [e, blkNeed_comm (wa.2.2 a ha).2.2.1 (wb.2.2 b hb).2.2.1]
            exact h b hb a ha e.symm
          · intro h b hb a ha e
            rw [e, blkNeed_comm (wb.2.2 b hb).2.2.1 (wa.2.2 a ha).2.2.1]
            exact h a ha b hb e.symm
        rw [inter_comm sa sb]
        refine (ss_intersect_chunk_room (dbg := dbg) ht fr fl wb.1 wa.1 wb.2 wa.2 hb' ha
          lb ub la ua hb ho).pack (fun v => (v.1, x, v.2))
          (pairs_and.trans (and_congr (pairs_swap (fun _ _ => blkTail_swap)) hroom)) ?_ ?_
          (fun v h => keep (inter (blkElems bs) (blkElems as)) 8 (by omega) v h)
        · intro v e
          simp [type_sparse, chunk_pair, e, hbl, hal, hlt]
        · intro e
          simp [type_sparse, chunk_pair, e, hbl, hal, hlt]

theorem seqElems_ge {cs : List Chk} {k : Nat} (h : ∀ c ∈ cs, k ≤ c.id) :
    ∀ x ∈ seqElems cs, 65536 * k ≤ x := by
  intro x hx
  unfold seqElems at hx
  obtain ⟨c, hc, hx⟩ := List.mem_flatMap.mp hx
  unfold Chk.elems at hx
  obtain ⟨y, _, rfl⟩ := List.mem_map.mp hx
  have := h c hc
  omega

theorem pairwise_intersection_loop_room {dbg : Bool} {tab : Nat → List Nat} (ht : TabOk tab)
    {m : Mem} {lol El lor Er cap : Nat} {P Q O : Nat → Nat} (fl : Fence m lol El) (fr : Fence m lor Er)
    (f : Nat) {il ir : It} {L R : List Chk} {out : Nat}
    {x buf : List Nat} (hl : ItOnP (ChkIn m lol El P) m il L) (hr : ItOnP (ChkIn m lor Er Q) m ir R)
    (hx : x.length = 1024) (hf : L.length + R.length < f)
    (hO : ∀ a ∈ L, ∀ b ∈ R, a.id = b.id →
      O a.id = out + under (inter (seqElems L) (seqElems R)) (65536 * a.id))
    (hcap : buf.length = cap) (ho : out ≤ cap) :
    Exact (Pairs Chk.id (fun a b => BodyTail El Er (P a.id) (Q b.id) a.body b.body ∧
        BodyRoom cap (O a.id) a.body b.body) L R)
      (pairwise_intersection_loop dbg tab m f il ir x buf out)
      (fun v => v.1 = out + (inter (seqElems L) (seqElems R)).length ∧ v.2.1.length = 1024 ∧
        Wrote buf out (inter (seqElems L) (seqElems R)) 23 v.2.2) := by
  induction f generalizing il ir L R out x buf with
  | zero => omega
  | succ f ih =>
    cases L with
    | nil =>
      refine Exact.of_ok (fun a ha => nomatch ha) ⟨(out, x, buf), ?_, rfl, hx, Wrote.nil _ _ _⟩
      simp [pairwise_intersection_loop, hl.has_next_nil]
    | cons a L =>
      cases R with
      | nil =>
        rw [show seqElems [] = [] from rfl, inter_nil]
        refine Exact.of_ok (fun a _ b hb => nomatch hb) ⟨(out, x, buf), ?_, rfl, hx, Wrote.nil _ _ _⟩
        simp [pairwise_intersection_loop, hr.has_next_nil]
      | cons b R =>
        have ia := hl.wf.head.1
        have ib := hr.wf.head.1
        simp only [pairwise_intersection_loop, hl.has_next, hr.has_next, Bool.and_self, if_true,
          hl.id, hr.id, ok_bind, u16_lt (show a.id < 65536 by omega),
          u16_lt (show b.id < 65536 by omega)]
        by_cases hab : a.id = b.id
        · rw [if_pos hab]
          have i3 : inter (seqElems (a :: L)) (seqElems (b :: R))
              = inter a.elems b.elems ++ inter (seqElems L) (seqElems R) :=
            inter_cons_cons (chk_sep hl.wf hr.wf) hab hl.wf.head_lt hr.wf.head_lt
          have hO1 : O a.id = out := by
            rw [hO a List.mem_cons_self b List.mem_cons_self hab, under_none, Nat.add_zero]
            intro x hx
            exact seqElems_ge hl.wf.ge_head x (mem_inter.mp hx).1
          have hO2 : ∀ c ∈ L, ∀ d ∈ R, c.id = d.id →
              O c.id = out + (inter a.body.vals b.body.vals).length
                + under (inter (seqElems L) (seqElems R)) (65536 * c.id) := by
            intro c hc d hd e
            rw [hO c (List.mem_cons_of_mem _ hc) d (List.mem_cons_of_mem _ hd) e, i3,
              inter_elems hab, under_append, under_all, List.length_map, Nat.add_assoc]
            intro x hx
            obtain ⟨y, hy, rfl⟩ := List.mem_map.mp hx
            have := hl.wf.head.2.bound y (mem_inter.mp hy).1
            have := hl.wf.head_lt c hc
            omega
          rw [i3, inter_elems hab, List.length_append, List.length_map]
          rw [u32_lt (show a.id * 65536 < 4294967296 by omega)]
          obtain ⟨pa, qa⟩ := hl.at_.2.1
          obtain ⟨pb, qb⟩ := hr.at_.2.1
          obtain ⟨t1, t2⟩ := intersect_chunks_room (dbg := dbg) ht fl fr hl hr pa pb
            (base := a.id * 65536) (out := out) (buf := buf) (by omega) hx (by omega)
          rw [hcap] at t1 t2
          refine Exact.congr ?_ (pairs_cons hab hl.wf.head_lt hr.wf.head_lt)
          rw [← qa, ← qb, hO1]
          by_cases hT : BodyTail El Er il.data ir.data a.body b.body ∧ BodyRoom cap out a.body b.body
          · obtain ⟨⟨n, x1, o1⟩, e1, hn, lx1, w1⟩ := t1 hT
            dsimp only at hn lx1 w1
            subst hn
            have lo := w1.length
            have hfit := w1.fits (by omega)
            rw [List.length_map] at hfit
            obtain ⟨il', n1, hl', -⟩ := hl.next
            obtain ⟨ir', n2, hr', -⟩ := hr.next
            simp only [List.length_cons] at hf
            have k := ih (il := il') (ir := ir') (x := x1) (buf := o1)
              (out := out + (inter a.body.vals b.body.vals).length) hl' hr' lx1 (by omega) hO2
              (by omega) (by omega)
            simp only [e1, ok_bind, n1, n2]
            refine ⟨fun h => ?_, fun h => k.2 (fun h' => h ⟨hT, h'⟩)⟩
            obtain ⟨v, e2, hv, lx2, w2⟩ := k.1 h.2
            refine ⟨v, e2, by rw [hv, Nat.add_assoc], lx2, ?_⟩
            exact Wrote.append w1 (by simpa using w2)
          · exact ⟨fun h => absurd h.1 hT, fun _ => by rw [t2 hT]; rfl⟩
        · rw [if_neg hab]
          by_cases hlt : a.id < b.id
          · rw [if_pos hlt]
            rw [inter_fromId_left hl.wf hr.wf hr.wf.ge_head] at hO ⊢
            obtain ⟨it', e, hit, -⟩ := It.advance_spec (lb := b.id) hl
            have := fromId_length_lt (A := L) hlt
            rw [e, ok_bind]
            exact (ih (il := it') (ir := ir) (x := x) (buf := buf) (out := out) hit hr hx (by omega)
              (fun c hc d hd e => hO c ((fromId_sublist _ _).subset hc) d hd e) hcap ho).congr
              (pairs_fromId_left hr.wf.ge_head)
          · rw [if_neg hlt]
            rw [inter_fromId_right hl.wf hr.wf hl.wf.ge_head] at hO ⊢
            obtain ⟨it', e, hit, -⟩ := It.advance_spec (lb := a.id) hr
            have := fromId_length_lt (A := R) (show b.id < a.id by omega)
            rw [e, ok_bind]
            exact (ih (il := il) (ir := it') (x := x) (buf := buf) (out := out) hl hit hx (by omega)
              (fun c hc d hd e => hO c hc d ((fromId_sublist _ _).subset hd) e) hcap ho).congr
              (pairs_fromId_right hl.wf.ge_head)

theorem pairwise_intersection_room {dbg : Bool} {tab : Nat → List Nat} (ht : TabOk tab)
    {m : Mem} {lol El lor Er : Nat} {P Q : Nat → Nat} (fl : Fence m lol El) (fr : Fence m lor Er)
    {l r : SSeq} {L R : List Chk} {out : Nat} {x buf : List Nat}
    (hl : SeqAtP (ChkIn m lol El P) m l L) (hr : SeqAtP (ChkIn m lor Er Q) m r R)
    (hx : x.length = 1024)
    (ho : out ≤ buf.length) :
    Exact (Pairs Chk.id (fun a b => BodyTail El Er (P a.id) (Q b.id) a.body b.body ∧
        BodyRoom buf.length (out + under (inter (seqElems L) (seqElems R)) (65536 * a.id))
          a.body b.body) L R)
      (pairwise_intersection dbg tab m l r x buf out)
      (fun v => v.1 = (inter (seqElems L) (seqElems R)).length ∧ v.2.1.length = 1024 ∧
        Wrote buf out (inter (seqElems L) (seqElems R)) 23 v.2.2) := by
  obtain ⟨t1, t2⟩ := pairwise_intersection_loop_room (dbg := dbg)
    (O := fun k => out + under (inter (seqElems L) (seqElems R)) (65536 * k)) ht fl fr
    (l.chunks + r.chunks + 1) hl.begin hr.begin (out := out) (buf := buf) hx
    (by rw [hl.chunks, hr.chunks]; omega) (fun _ _ _ _ _ => rfl) rfl ho
  unfold pairwise_intersection
  constructor
  · intro hT
    obtain ⟨⟨n, x1, o1⟩, e1, hn, lx1, w1⟩ := t1 hT
    dsimp only at hn lx1 w1
    subst hn
    refine ⟨_, by rw [e1]; rfl, Nat.add_sub_cancel_left _ _, lx1, w1⟩
  · intro hT
    rw [t2 hT]; rfl

end Sliced
