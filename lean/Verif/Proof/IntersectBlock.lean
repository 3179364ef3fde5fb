import Verif.Proof.Decode
import Verif.Proof.SetLists
import Verif.Model.Intersection
/-! # Intersection of two blocks -/
namespace Sliced

theorem stdTab_ok : TabOk stdTab := by
  intro mask _
  refine ⟨?_, List.prefix_append _ _⟩
  have : ((List.range 16).filter (fun j => mask.testBit j)).length ≤ 16 :=
    Nat.le_trans (List.length_filter_le _ _) (by rw [List.length_range]; exact Nat.le_refl _)
  simp only [stdTab, List.length_append, List.length_replicate]
  omega

theorem foldl_setbits (P : Nat → Prop) [DecidablePred P] (L : List Nat) (m0 k : Nat) :
    (L.foldl (fun mask j => if P j then mask ||| 2 ^ j else mask) m0).testBit k
      = (m0.testBit k || decide (k ∈ L ∧ P k)) := by
  induction L generalizing m0 with
  | nil => simp
  | cons a L ih =>
    rw [List.foldl_cons, ih]
    by_cases ha : P a
    · rw [if_pos ha, Nat.testBit_or, Nat.testBit_two_pow]
      by_cases hk : a = k
      · subst hk; simp [ha]
      · have hk' : ¬ k = a := fun h => hk h.symm
        simp [hk, hk']
    · rw [if_neg ha]
      by_cases hk : k = a
      · subst hk; simp [ha]
      · simp [hk]

theorem cmpestrm_testBit (a : List Nat) (la : Nat) (b : List Nat) (lb j : Nat) :
    (cmpestrm a la b lb).testBit j
      = decide (j < 16 ∧ j < lb ∧ ∃ y, b[j]? = some y ∧ y ∈ a.take la) := by
  unfold cmpestrm
  rw [foldl_setbits (fun j => j < lb ∧ ((b[j]?).any fun y => (a.take la).contains y) = true)]
  simp [Option.any_eq_true]

theorem cmpestrm_lt (a : List Nat) (la : Nat) (b : List Nat) (lb : Nat) :
    cmpestrm a la b lb < 65536 := by
  apply Nat.lt_pow_two_of_testBit (n := 16)
  intro i hi
  rw [cmpestrm_testBit]
  simp; omega

theorem popcount_small {w : Nat} (h : w < 65536) :
    popcount w = ((List.range 16).filter (fun j => w.testBit j)).length := by
  unfold popcount
  congr 1
  apply sorted_ext (range_sorted _ |>.filter _) (range_sorted _ |>.filter _)
  intro x
  simp only [List.mem_filter, List.mem_range]
  constructor
  · rintro ⟨_, hx⟩
    refine ⟨?_, hx⟩
    by_cases hlt : x < 16
    · exact hlt
    · rw [Nat.testBit_lt_two_pow (Nat.lt_of_lt_of_le h
        (show 65536 ≤ 2 ^ x from Nat.pow_le_pow_right (n := 2) (by omega) (by omega : 16 ≤ x)))] at hx
      cases hx
  · rintro ⟨h1, h2⟩; exact ⟨by omega, h2⟩

theorem take_filter_bits (v : List Nat) (n : Nat) (q : Nat → Bool) :
    (v.take n).filter q
      = ((List.range v.length).filter (fun j => decide (j < n) && q (v.getD j 0))).map
          (fun j => v.getD j 0) := by
  have h1 : v.take n = (List.range (min n v.length)).map (fun j => v.getD j 0) := by
    apply List.ext_getElem?
    intro i
    by_cases hi : i < n
    · by_cases hv : i < v.length
      · rw [List.getElem?_take_of_lt hi, List.getElem?_map, List.getElem?_range (by omega)]
        simp [hv]
      · rw [List.getElem?_eq_none (by simp; omega), List.getElem?_eq_none (by simp; omega)]
    · rw [List.getElem?_eq_none (by simp; omega), List.getElem?_eq_none (by simp; omega)]
  rw [h1, List.filter_map]
  congr 1
  apply sorted_ext (range_sorted _ |>.filter _) (range_sorted _ |>.filter _)
  intro x
  simp only [List.mem_filter, List.mem_range, Function.comp, Bool.and_eq_true, decide_eq_true_eq]
  constructor
  · rintro ⟨h1, h2⟩; exact ⟨by omega, by omega, h2⟩
  · rintro ⟨h1, h2, h3⟩; exact ⟨by omega, h3⟩

/-- `intersection.hpp:21-38`: the lanes of the right block that also occur in the left one. -/
theorem intersect_step_spec {tab : Nat → List Nat} (ht : TabOk tab) {v_l v_r : List Nat}
    {card_l card_r base size out : Nat} {buf : List Nat} (hlen : v_r.length = 16)
    (hr : ∀ x ∈ v_r, x < 256) (hb : base + 256 ≤ 4294967296)
    (hcap : out + (inter (v_r.take card_r) (v_l.take card_l)).length + 8 ≤ buf.length) :
    ∃ buf', intersect_step tab v_l card_l v_r card_r base size buf out
        = .ok (size + (inter (v_r.take card_r) (v_l.take card_l)).length, buf') ∧
      Wrote buf out ((inter (v_r.take card_r) (v_l.take card_l)).map (base + ·)) 8 buf' := by
  generalize hmask : cmpestrm v_l card_l v_r card_r = mask
  have hm : mask < 65536 := hmask ▸ cmpestrm_lt _ _ _ _
  have hin : inter (v_r.take card_r) (v_l.take card_l)
      = ((List.range 16).filter (fun j => mask.testBit j)).map (fun j => v_r.getD j 0) := by
    unfold inter
    rw [take_filter_bits, hlen]
    congr 1
    apply List.filter_congr
    intro j hj
    have hj : j < 16 := List.mem_range.mp hj
    rw [← hmask, cmpestrm_testBit, Bool.eq_iff_iff]
    simp only [Bool.and_eq_true, decide_eq_true_eq]
    constructor
    · rintro ⟨h1, h2⟩
      refine ⟨hj, h1, v_r.getD j 0, ?_, h2⟩
      simp [hlen, hj]
    · rintro ⟨_, h1, y, h2, h3⟩
      refine ⟨h1, ?_⟩
      rw [List.getD_eq_getElem?_getD, h2]
      exact h3
  rw [hin] at hcap ⊢
  obtain ⟨hT, rest, hrest⟩ := ht mask hm
  generalize hbits : (List.range 16).filter (fun j => mask.testBit j) = bits at *
  have hbl : bits.length ≤ 16 := by rw [← hrest] at hT; simp at hT; omega
  have hb16 : ∀ j ∈ bits, j < 16 := by
    intro j hj; rw [← hbits] at hj; exact List.mem_range.mp (List.mem_filter.mp hj).1
  have hpop : popcount mask = bits.length := by rw [popcount_small hm, hbits]
  generalize hP : pshufb v_r (tab mask) = P
  have hPl : P.length = 16 := by rw [← hP]; unfold pshufb; rw [List.length_map, hT]
  have hPt : P.take bits.length = bits.map (fun j => v_r.getD j 0) := by
    rw [← hP]; unfold pshufb
    rw [← hrest, List.map_append, List.take_left' (by simp)]
    apply List.map_congr_left
    intro j hj
    have := hb16 j hj
    rw [if_neg (by omega), Nat.mod_eq_of_lt this]
  have hPb : ∀ x ∈ P, x < 256 := by
    intro x hx
    rw [← hP] at hx
    unfold pshufb at hx
    obtain ⟨c, _, rfl⟩ := List.mem_map.mp hx
    split
    · omega
    · rename_i hc
      have hc16 : c % 16 < v_r.length := by omega
      rw [List.getD_eq_getElem?_getD, List.getElem?_eq_getElem hc16]
      exact hr _ (List.getElem_mem hc16)
  have hcv : ∀ Q : List Nat, (∀ x ∈ Q, x < 256) → cvtAdd base Q = (Q.take 8).map (base + ·) := by
    intro Q hQ
    unfold cvtAdd
    apply List.map_congr_left
    intro x hx
    have := hQ x (List.mem_of_mem_take hx)
    exact u32_lt (by omega)
  have hml : (bits.map (fun j => v_r.getD j 0)).length = bits.length := List.length_map _
  rw [hml] at hcap ⊢
  unfold intersect_step storeu
  simp only [hmask, hpop, hP]
  obtain ⟨o1, e1, w1⟩ := wrs_of (vs := (P.take 8).map (base + ·)) (out := buf) (p := out)
    (by simp [hPl]; omega)
  rw [hcv P hPb, e1]
  simp only [ok_bind]
  by_cases h8 : bits.length > 8
  · rw [if_pos h8]
    have l1 := w1.length
    have hd : cvtAdd base (P.drop 8 ++ List.replicate 8 0) = (P.drop 8).map (base + ·) := by
      rw [hcv]
      · rw [List.take_left' (by simp [hPl])]
      · intro x hx
        rcases List.mem_append.mp hx with hx | hx
        · exact hPb x (List.mem_of_mem_drop hx)
        · rw [(List.mem_replicate.mp hx).2]; omega
    obtain ⟨o2, e2, w2⟩ := wrs_of (vs := (P.drop 8).map (base + ·)) (out := o1) (p := out + 8)
      (by simp [hPl]; omega)
    rw [hd, e2]
    refine ⟨o2, rfl, ?_⟩
    have w := Wrote.append w1 (by rw [show ((P.take 8).map (base + ·)).length = 8 by simp [hPl]]; exact w2)
    rw [← List.map_append, List.take_append_drop] at w
    rw [← hPt, List.map_take]
    exact w.shrink bits.length 8 (by simp [hPl]; omega) (by simp [hPl]; omega)
  · rw [if_neg h8]
    refine ⟨o1, rfl, ?_⟩
    rw [← hPt, show P.take bits.length = (P.take 8).take bits.length by
      rw [List.take_take]; congr 1; omega, List.map_take]
    exact w1.shrink bits.length 8 (by simp [hPl]) (by simp [hPl]; omega)

/-- the 16 lanes loaded from `a` -/
def lanes (m : Mem) (a : Nat) : List Nat := (List.range 16).map (fun k => byteAt m (a + k))

theorem lanes_length (m : Mem) (a : Nat) : (lanes m a).length = 16 := by simp [lanes]
theorem lanes_lt (m : Mem) (a : Nat) : ∀ x ∈ lanes m a, x < 256 := by
  intro x hx
  obtain ⟨k, _, rfl⟩ := List.mem_map.mp hx
  exact byteAt_lt _ _

theorem lanes_take {m : Mem} {a : Nat} {vals : List Nat} (h : BytesAt m a vals) :
    (lanes m a).take vals.length = vals.take 16 := by
  apply List.ext_getElem?
  intro i
  by_cases hi : i < vals.length
  · by_cases h16 : i < 16
    · rw [List.getElem?_take_of_lt hi, List.getElem?_take_of_lt h16, List.getElem?_eq_getElem hi]
      unfold lanes
      rw [List.getElem?_map, List.getElem?_range h16]
      simp only [Option.map_some]
      rw [byteAt_of_rd8 (h i _ (List.getElem?_eq_getElem hi))]
    · rw [List.getElem?_eq_none (by simp [lanes_length]; omega),
        List.getElem?_eq_none (by simp; omega)]
  · rw [List.getElem?_eq_none (by simp; omega), List.getElem?_eq_none (by simp; omega)]

theorem BytesAt.drop {m : Mem} {a : Nat} {vals : List Nat} (h : BytesAt m a vals) (k : Nat) :
    BytesAt m (a + k) (vals.drop k) := by
  intro i v hv
  rw [List.getElem?_drop] at hv
  have := h (k + i) v hv
  rwa [← Nat.add_assoc] at this

theorem BytesAt.head {m : Mem} {a v : Nat} {vals : List Nat} (h : BytesAt m a (v :: vals)) :
    rd8 m a = .ok v := by simpa using h 0 v rfl
theorem BytesAt.tail {m : Mem} {a v : Nat} {vals : List Nat} (h : BytesAt m a (v :: vals)) :
    BytesAt m (a + 1) vals := by simpa using h.drop 1

/-! ## The scalar loop -/

/-- Outcome of skipping the values of `V` (at `p`) below `k`. -/
def SkipTo (p : Nat) (V : List Nat) (k : Nat) : Option Nat → Prop
  | none => ∀ v ∈ V, v < k
  | some p' => ∃ pre v V', V = pre ++ v :: V' ∧ (∀ x ∈ pre, x < k) ∧ k ≤ v ∧ p' = p + pre.length

theorem scalar_skip_l_spec {m : Mem} {end_l r k : Nat} (hk : rd8 m r = .ok k) (f : Nat) {l : Nat}
    {V : List Nat} (hne : V ≠ []) (h : BytesAt m l V) (he : l + V.length = end_l)
    (hf : V.length < f) :
    ∃ o, scalar_skip_l m end_l r f l = .ok o ∧ SkipTo l V k o := by
  induction f generalizing l V with
  | zero => omega
  | succ f ih =>
    obtain ⟨v, V, rfl⟩ := List.exists_cons_of_ne_nil hne
    simp only [List.length_cons] at he hf
    simp only [scalar_skip_l, h.head, hk, ok_bind]
    by_cases hv : v < k
    · rw [if_pos hv]
      by_cases hend : l + 1 = end_l
      · rw [if_pos hend]
        have : V = [] := List.length_eq_zero_iff.mp (by omega)
        subst this
        exact ⟨none, rfl, by simpa [SkipTo] using hv⟩
      · rw [if_neg hend]
        obtain ⟨o, e, s⟩ := ih (l := l + 1) (V := V) (by intro h0; subst h0; simp at he; omega) h.tail
          (by omega) (by omega)
        refine ⟨o, e, ?_⟩
        cases o with
        | none =>
          intro x hx
          rcases List.mem_cons.mp hx with rfl | hx
          · exact hv
          · exact s x hx
        | some p' =>
          obtain ⟨pre, w, V', h1, h2, h3, h4⟩ := s
          refine ⟨v :: pre, w, V', by simp [h1], ?_, h3, by simp; omega⟩
          intro x hx
          rcases List.mem_cons.mp hx with rfl | hx
          · exact hv
          · exact h2 x hx
    · rw [if_neg hv]
      exact ⟨some l, rfl, [], v, V, rfl, by simp, by omega, by simp⟩

theorem scalar_skip_r_eq (m : Mem) (end_ q f p : Nat) {x : Nat} (hq : rd8 m q = .ok x) :
    scalar_skip_r m end_ q f p = scalar_skip_l m end_ q f p := by
  induction f generalizing p with
  | zero => rfl
  | succ f ih =>
    simp only [scalar_skip_r, scalar_skip_l, hq, ok_bind]
    cases rd8 m p with
    | error e => rfl
    | ok z => simp only [ok_bind, gt_iff_lt, ih]

theorem flatMap_singleton (L : List Nat) : L.flatMap (fun x => [x]) = L := by
  induction L with
  | nil => rfl
  | cons a L ih => simp [ih]

theorem sep_singleton (A B : List Nat) : Sep (fun x => x) (fun x => [x]) A B := by
  intro a _ b _ x ha hb
  simp only [List.mem_singleton] at ha hb
  rw [← ha, ← hb]

theorem scalar_loop_spec {m : Mem} {end_l end_r base out : Nat} (f : Nat) {l r size : Nat}
    {L R buf : List Nat} (hL : L ≠ []) (hR : R ≠ []) (sL : L.Pairwise (· < ·))
    (sR : R.Pairwise (· < ·)) (bL : ∀ v ∈ L, v < 256) (hl : BytesAt m l L) (hr : BytesAt m r R)
    (el : l + L.length = end_l) (er : r + R.length = end_r) (hf : L.length + R.length < f)
    (hb : base + 256 ≤ 4294967296) (hcap : out + size + (inter L R).length ≤ buf.length) :
    ∃ buf', scalar_loop m end_l end_r base out f l r size buf
        = .ok (size + (inter L R).length, buf') ∧
      Wrote buf (out + size) ((inter L R).map (base + ·)) 0 buf' := by
  induction f generalizing l r size L R buf with
  | zero => omega
  | succ f ih =>
    obtain ⟨k, R, rfl⟩ := List.exists_cons_of_ne_nil hR
    have hRk : ∀ b ∈ k :: R, k ≤ b := by
      intro b hb
      rcases List.mem_cons.mp hb with rfl | hb
      · omega
      · have := (List.pairwise_cons.mp sR).1 b hb; omega
    obtain ⟨o, e1, s1⟩ := scalar_skip_l_spec (m := m) (r := r) hr.head (end_l - l + 1) hL hl el
      (by omega)
    simp only [scalar_loop, e1, ok_bind]
    cases o with
    | none =>
      have : inter L (k :: R) = [] := by
        unfold inter
        rw [List.filter_eq_nil_iff]
        intro x hx
        have h1 := s1 x hx
        rw [decide_eq_true_eq]
        intro h2
        have := hRk x h2
        omega
      rw [this]
      exact ⟨buf, rfl, Wrote.nil _ _ _⟩
    | some l' =>
      obtain ⟨pre, v, V, rfl, hpre, hkv, rfl⟩ := s1
      have i1 : inter (pre ++ v :: V) (k :: R) = inter (v :: V) (k :: R) := by
        have := inter_drop_left (key := fun x => x) (f := fun x => [x]) (pre := pre) (A := v :: V)
          (B := k :: R) (sep_singleton _ _)
          (fun a ha b hb => Nat.lt_of_lt_of_le (hpre a ha) (hRk b hb))
        simpa only [flatMap_singleton] using this
      rw [i1] at hcap ⊢
      have hl' : BytesAt m (l + pre.length) (v :: V) := by
        have := hl.drop pre.length
        rwa [List.drop_left' rfl] at this
      have sL' : (v :: V).Pairwise (· < ·) := (List.pairwise_append.mp sL).2.1
      have hVv : ∀ b ∈ v :: V, v ≤ b := by
        intro b hb
        rcases List.mem_cons.mp hb with rfl | hb
        · omega
        · have := (List.pairwise_cons.mp sL').1 b hb; omega
      have bL' : ∀ x ∈ v :: V, x < 256 := fun x hx => bL x (by simp [hx])
      simp only [List.length_append, List.length_cons] at el hf er
      obtain ⟨o, e2, s2⟩ := scalar_skip_l_spec (m := m) (r := l + pre.length) (l := r) hl'.head
        (end_r - r + 1) (V := k :: R) (end_l := end_r) (by simp) hr (by simp; omega) (by simp; omega)
      simp only [scalar_skip_r_eq m end_r _ _ r hl'.head, e2, ok_bind]
      cases o with
      | none =>
        have : inter (v :: V) (k :: R) = [] := by
          unfold inter
          rw [List.filter_eq_nil_iff]
          intro x hx
          rw [decide_eq_true_eq]
          intro h2
          have h1 := s2 x h2
          have := hVv x hx
          omega
        rw [this]
        exact ⟨buf, rfl, Wrote.nil _ _ _⟩
      | some r' =>
        obtain ⟨pre2, w, W, hRW, hpre2, hvw, rfl⟩ := s2
        rw [hRW] at hcap hr sR ⊢
        have i2 : inter (v :: V) (pre2 ++ w :: W) = inter (v :: V) (w :: W) := by
          have := inter_drop_right (key := fun x => x) (f := fun x => [x]) (pre := pre2)
            (A := v :: V) (B := w :: W) (sep_singleton _ _)
            (fun a ha b hb => Nat.lt_of_lt_of_le (hpre2 b hb) (hVv a ha))
          simpa only [flatMap_singleton] using this
        rw [i2] at hcap ⊢
        have hr' : BytesAt m (r + pre2.length) (w :: W) := by
          have := hr.drop pre2.length
          rwa [List.drop_left' rfl] at this
        have sR' : (w :: W).Pairwise (· < ·) := (List.pairwise_append.mp sR).2.1
        have hlenR : R.length + 1 = pre2.length + (W.length + 1) := by
          have := congrArg List.length hRW
          simpa using this
        simp only [hl'.head, hr'.head, ok_bind]
        by_cases hvw' : v = w
        · subst hvw'
          have i3 : inter (v :: V) (v :: W) = v :: inter V W := by
            have := inter_cons_cons (key := fun x => x) (f := fun x => [x]) (a := v) (b := v)
              (A := V) (B := W) (sep_singleton _ _) rfl (List.pairwise_cons.mp sL').1
              (List.pairwise_cons.mp sR').1
            simp only [flatMap_singleton] at this
            rw [this]
            simp [inter]
          rw [i3] at hcap ⊢
          simp only [List.length_cons] at hcap ⊢
          have hu : u32 (v + base) = base + v := by
            have := bL' v (by simp)
            rw [u32_lt (by omega)]; omega
          rw [if_pos trivial, wr_of (by omega), hu]
          simp only [ok_bind]
          have w1 : Wrote buf (out + size) [base + v] 0 (buf.set (out + size) (base + v)) :=
            Wrote.single (by omega)
          by_cases c1 : l + pre.length + 1 = end_l
          · have : V = [] := List.length_eq_zero_iff.mp (by omega)
            subst this
            rw [if_pos c1]
            exact ⟨_, rfl, w1⟩
          · rw [if_neg c1]
            by_cases c2 : r + pre2.length + 1 = end_r
            · have : W = [] := List.length_eq_zero_iff.mp (by omega)
              subst this
              rw [if_pos c2, inter_nil]
              exact ⟨_, rfl, w1⟩
            · rw [if_neg c2]
              obtain ⟨o2, e3, w3⟩ := ih (l := l + pre.length + 1) (r := r + pre2.length + 1)
                (size := size + 1) (L := V) (R := W) (buf := buf.set (out + size) (base + v))
                (by intro h0; subst h0; simp at el; omega)
                (by intro h0; subst h0; simp at hlenR; omega)
                (List.pairwise_cons.mp sL').2 (List.pairwise_cons.mp sR').2
                (fun x hx => bL' x (by simp [hx])) hl'.tail hr'.tail (by omega)
                (by omega) (by omega)
                (by simp; omega)
              refine ⟨o2, ?_, ?_⟩
              · rw [e3]; congr 2; omega
              · rw [List.map_cons]
                exact Wrote.append (L1 := [base + v]) w1 (by simpa [Nat.add_assoc] using w3)
        · rw [if_neg hvw']
          have hp2 : 0 < pre2.length := by
            rcases Nat.eq_zero_or_pos pre2.length with h0 | h0
            · have : pre2 = [] := List.length_eq_zero_iff.mp h0
              subst this
              simp at hRW
              omega
            · exact h0
          exact ih (by simp) (by simp) sL' sR' bL' hl' hr' (by simp; omega) (by simp; omega)
            (by simp; omega) hcap

/-! ## Blocks -/

theorem inter_append_left (A A' B : List Nat) : inter (A ++ A') B = inter A B ++ inter A' B :=
  List.filter_append ..

theorem inter_split_right {A B : List Nat} (n : Nat) (hA : A.Pairwise (· < ·))
    (hB : B.Pairwise (· < ·)) : inter A (B.take n) ++ inter A (B.drop n) = inter A B := by
  have hs : (B.take n ++ B.drop n).Pairwise (· < ·) := by rwa [List.take_append_drop]
  apply sorted_ext
  · rw [List.pairwise_append]
    refine ⟨inter_sorted hA, inter_sorted hA, ?_⟩
    intro x hx y hy
    exact (List.pairwise_append.mp hs).2.2 x (mem_inter.mp hx).2 y (mem_inter.mp hy).2
  · exact inter_sorted hA
  · intro x
    have : x ∈ B ↔ x ∈ B.take n ∨ x ∈ B.drop n := by
      rw [← List.mem_append, List.take_append_drop]
    rw [List.mem_append, mem_inter, mem_inter, mem_inter, this, and_or_left]

/-- bytes that the vector code reads from a block of `n` values -/
def ilane (n : Nat) : Nat := if n ≤ 16 then 16 else 32

theorem ilane_le {n : Nat} (h : 1 ≤ n) : ilane n ≤ n + 31 := by unfold ilane; split <;> omega

theorem ilane_small {n : Nat} (h : n ≤ 16) : ilane n = 16 := if_pos h
theorem ilane_large {n : Nat} (h : ¬ n ≤ 16) : ilane n = 32 := if_neg h

theorem ss_intersect_block_spec {dbg : Bool} {tab : Nat → List Nat} (ht : TabOk tab) {m : Mem}
    {l r base out : Nat} {L R buf : List Nat} (hL : L ≠ []) (hR : R ≠ []) (cL : L.length < 31)
    (cR : R.length < 31) (sL : L.Pairwise (· < ·)) (sR : R.Pairwise (· < ·))
    (bL : ∀ v ∈ L, v < 256) (hl : BytesAt m l L) (hr : BytesAt m r R)
    (rd : ¬ (16 < L.length ∧ 16 < R.length) →
      Readable m l (ilane L.length) ∧ Readable m r (ilane R.length))
    (hb : base + 256 ≤ 4294967296) (hcap : out + (inter L R).length + 8 ≤ buf.length) :
    ∃ buf', ss_intersect_block dbg tab m l r L.length R.length base buf out
        = .ok ((inter L R).length, buf') ∧
      Wrote buf out ((inter L R).map (base + ·)) 8 buf' := by
  have pL := List.length_pos_iff.mpr hL
  have pR := List.length_pos_iff.mpr hR
  have ec := inter_comm sL sR
  unfold ss_intersect_block
  rw [cassert_of (by simp; omega), cassert_of (by simp; omega)]
  simp only [ok_bind]
  have g1 : ∀ n, 16 ≤ ilane n := fun n => by unfold ilane; split <;> omega
  have ll : ¬ (16 < L.length ∧ 16 < R.length) → lddqu m l = .ok (lanes m l) :=
    fun h => lddqu_spec ((rd h).1.mono (n' := 16) (g1 _))
  have lr : ¬ (16 < L.length ∧ 16 < R.length) → lddqu m r = .ok (lanes m r) :=
    fun h => lddqu_spec ((rd h).2.mono (n' := 16) (g1 _))
  have tl := lanes_take hl
  have tr := lanes_take hr
  by_cases c1 : L.length ≤ 16 ∧ R.length ≤ 16
  · rw [if_pos c1, ll (by omega), lr (by omega)]
    simp only [ok_bind]
    have := intersect_step_spec ht (v_l := lanes m l) (v_r := lanes m r) (card_l := L.length)
      (card_r := R.length) (base := base) (size := 0) (out := out) (buf := buf) (lanes_length _ _)
      (lanes_lt _ _) hb (by
        rw [tl, tr, List.take_of_length_le c1.1, List.take_of_length_le c1.2, ← ec]; exact hcap)
    rwa [tl, tr, List.take_of_length_le c1.1, List.take_of_length_le c1.2, ← ec, Nat.zero_add] at this
  · rw [if_neg c1]
    by_cases c2 : L.length ≤ 16 ∧ R.length > 16
    · rw [if_pos c2, ll (by omega), lr (by omega)]
      simp only [ok_bind]
      have hsplit : inter R L = inter (R.take 16) L ++ inter (R.drop 16) L := by
        rw [← inter_append_left, List.take_append_drop]
      have hlen := congrArg List.length hsplit
      rw [List.length_append] at hlen
      rw [ec] at hcap ⊢
      have t2 := lanes_take (hr.drop 16)
      rw [List.length_drop, List.take_of_length_le (l := R.drop 16) (by simp; omega)] at t2
      have lr2 : lddqu m (r + 16) = .ok (lanes m (r + 16)) :=
        lddqu_spec ((rd (by omega)).2.shift (k := 16) (n' := 16) (by rw [ilane_large (by omega)]; omega))
      obtain ⟨o1, e1, w1⟩ := intersect_step_spec ht (v_l := lanes m l) (v_r := lanes m r)
        (card_l := L.length) (card_r := R.length) (base := base) (size := 0) (out := out)
        (buf := buf) (lanes_length _ _) (lanes_lt _ _) hb (by
          rw [tl, tr, List.take_of_length_le c2.1]; omega)
      rw [tl, tr, List.take_of_length_le c2.1, Nat.zero_add] at e1
      rw [tl, tr, List.take_of_length_le c2.1] at w1
      have l1 := w1.length
      obtain ⟨o2, e2, w2⟩ := intersect_step_spec ht (v_l := lanes m l) (v_r := lanes m (r + 16))
        (card_l := L.length) (card_r := R.length - 16) (base := base)
        (size := (inter (R.take 16) L).length) (out := out + (inter (R.take 16) L).length)
        (buf := o1) (lanes_length _ _) (lanes_lt _ _) hb (by
          rw [tl, t2, List.take_of_length_le c2.1]; omega)
      rw [tl, t2, List.take_of_length_le c2.1] at e2 w2
      refine ⟨o2, ?_, ?_⟩
      · rw [e1]; simp only [ok_bind, lr2, e2]; rw [hlen]
      · rw [hsplit, List.map_append]
        exact Wrote.append w1 (by simpa using w2)
    · rw [if_neg c2]
      by_cases c3 : R.length ≤ 16 ∧ L.length > 16
      · rw [if_pos c3, ll (by omega), lr (by omega)]
        simp only [ok_bind]
        have hsplit := inter_split_right 16 sR sL
        have hlen := congrArg List.length hsplit
        rw [List.length_append] at hlen
        rw [ec] at hcap ⊢
        have t2 := lanes_take (hl.drop 16)
        rw [List.length_drop, List.take_of_length_le (l := L.drop 16) (by simp; omega)] at t2
        have ll2 : lddqu m (l + 16) = .ok (lanes m (l + 16)) :=
          lddqu_spec ((rd (by omega)).1.shift (k := 16) (n' := 16) (by rw [ilane_large (by omega)]; omega))
        obtain ⟨o1, e1, w1⟩ := intersect_step_spec ht (v_l := lanes m l) (v_r := lanes m r)
          (card_l := L.length) (card_r := R.length) (base := base) (size := 0) (out := out)
          (buf := buf) (lanes_length _ _) (lanes_lt _ _) hb (by
            rw [tl, tr, List.take_of_length_le c3.1]; omega)
        rw [tl, tr, List.take_of_length_le c3.1, Nat.zero_add] at e1
        rw [tl, tr, List.take_of_length_le c3.1] at w1
        have l1 := w1.length
        obtain ⟨o2, e2, w2⟩ := intersect_step_spec ht (v_l := lanes m (l + 16)) (v_r := lanes m r)
          (card_l := L.length - 16) (card_r := R.length) (base := base)
          (size := (inter R (L.take 16)).length) (out := out + (inter R (L.take 16)).length)
          (buf := o1) (lanes_length _ _) (lanes_lt _ _) hb (by
            rw [tr, t2, List.take_of_length_le c3.1]; omega)
        rw [tr, t2, List.take_of_length_le c3.1] at e2 w2
        refine ⟨o2, ?_, ?_⟩
        · rw [e1]; simp only [ok_bind, ll2, e2]; rw [hlen]
        · rw [← hsplit, List.map_append]
          exact Wrote.append w1 (by simpa using w2)
      · rw [if_neg c3]
        obtain ⟨o, e, w⟩ := scalar_loop_spec (m := m) (base := base) (out := out) (size := 0)
          (buf := buf) (end_l := l + L.length) (end_r := r + R.length) (L.length + R.length + 1)
          hL hR sL sR bL hl hr rfl rfl (by omega) hb (by omega)
        refine ⟨o, ?_, ?_⟩
        · rw [e, Nat.zero_add]
        · exact Wrote.mono (by simpa using w) (by omega)

theorem ds_intersect_block_loop_spec {m : Mem} {l r base out : Nat} {P : Nat → Bool}
    (hl : BitsAt (memWords m l) 4 P) {V : List Nat} {i k : Nat} {buf : List Nat}
    (hr : BytesAt m (r + i) V) (bV : ∀ v ∈ V, v < 256) (hb : base + 256 ≤ 4294967296)
    (hcap : out + k + (V.filter P).length + 1 ≤ buf.length) :
    ∃ buf', ds_intersect_block_loop m l r base out V.length i k buf
        = .ok (k + (V.filter P).length, buf') ∧
      Wrote buf (out + k) ((V.filter P).map (base + ·)) 1 buf' := by
  induction V generalizing i k buf with
  | nil => exact ⟨buf, rfl, Wrote.nil _ _ _⟩
  | cons v V ih =>
    have hv : v < 256 := bV v (by simp)
    have hu : u32 (v + base) = base + v := by rw [u32_lt (by omega)]; omega
    have hct := bitmap_contains_spec hl (v := v) (by omega)
    simp only [List.length_cons, ds_intersect_block_loop, hr.head, ok_bind,
      wr_of (show out + k < buf.length by omega), hct, hu]
    have w1 : Wrote buf (out + k) [base + v] 0 (buf.set (out + k) (base + v)) :=
      Wrote.single (by omega)
    have hr' : BytesAt m (r + (i + 1)) V := hr.tail
    by_cases hP : P v = true
    · simp only [List.filter_cons, if_pos hP, List.length_cons] at hcap ⊢
      obtain ⟨o, e, w⟩ := ih (i := i + 1) (k := k + 1) (buf := buf.set (out + k) (base + v)) hr'
        (fun x hx => bV x (by simp [hx])) (by simp; omega)
      refine ⟨o, ?_, ?_⟩
      · rw [e]; congr 2; omega
      · rw [List.map_cons]
        exact Wrote.append (L1 := [base + v]) (w1.mono (by omega))
          (by simpa [Nat.add_assoc] using w)
    · simp only [List.filter_cons, if_neg hP, Nat.add_zero] at hcap ⊢
      obtain ⟨o, e, w⟩ := ih (i := i + 1) (k := k) (buf := buf.set (out + k) (base + v)) hr'
        (fun x hx => bV x (by simp [hx])) (by simp; omega)
      refine ⟨o, e, ?_⟩
      have w0 : Wrote buf (out + k) [] 1 (buf.set (out + k) (base + v)) := by
        simpa using w1.shrink 0 1 (by simp) (by simp)
      exact Wrote.append (L1 := []) w0 (by simpa using w)

theorem BlkAt.sparse {pad : Nat} {m : Mem} {dp : Nat} {b : Blk} (h : BlkAt pad m dp b)
    (hc : b.vals.length < 31) :
    BytesAt m dp b.vals ∧ Readable m dp (b.vals.length + pad) := by
  unfold BlkAt at h; rwa [if_pos hc] at h

theorem BlkAt.dense {pad : Nat} {m : Mem} {dp : Nat} {b : Blk} (h : BlkAt pad m dp b)
    (hc : ¬ b.vals.length < 31) : BitsAt (memWords m dp) 4 (fun x => decide (x ∈ b.vals)) := by
  unfold BlkAt at h; rwa [if_neg hc] at h

/-- The intersection of two blocks, whatever their encodings. -/
theorem intersect_blocks_exact {dbg : Bool} {tab : Nat → List Nat} (ht : TabOk tab) {pad : Nat}
    {m : Mem}
    {l r base out : Nat} {a b : Blk} {buf : List Nat} (wa : a.WF) (wb : b.WF)
    (ha : BlkAt pad m l a) (hb : BlkAt pad m r b)
    (rd : a.vals.length < 31 → b.vals.length < 31 →
      ¬ (16 < a.vals.length ∧ 16 < b.vals.length) →
      Readable m l (ilane a.vals.length) ∧ Readable m r (ilane b.vals.length)) (hbase : base + 256 ≤ 4294967296)
    (hcap : out + (inter a.vals b.vals).length + 8 ≤ buf.length) :
    ∃ buf', intersect_blocks dbg tab m l r a.vals.length b.vals.length base buf out
        = .ok ((inter a.vals b.vals).length, buf') ∧
      Wrote buf out ((inter a.vals b.vals).map (base + ·)) 8 buf' := by
  have sa := wa.2.2.1
  have sb := wb.2.2.1
  unfold intersect_blocks
  by_cases ca : a.vals.length < 31 <;> by_cases cb : b.vals.length < 31
  · obtain ⟨h1, h2⟩ := ha.sparse ca
    obtain ⟨h3, h4⟩ := hb.sparse cb
    have := ss_intersect_block_spec (dbg := dbg) ht wa.2.1 wb.2.1 ca cb sa sb wa.2.2.2 h1 h3 (rd ca cb)
      hbase hcap
    simpa [block_type, ca, cb] using this
  · obtain ⟨h1, h2⟩ := ha.sparse ca
    have h3 := hb.dense cb
    obtain ⟨o, e, w⟩ := ds_intersect_block_loop_spec (r := l) (i := 0) (k := 0) (base := base) (out := out)
      (buf := buf) h3 h1 wa.2.2.2 hbase (by unfold inter at hcap; omega)
    rw [Nat.zero_add] at e
    refine ⟨o, ?_, Wrote.mono (by simpa [inter] using w) (by omega)⟩
    simpa [block_type, ca, cb, type_sparse, type_dense, block_pair, ds_intersect_block, inter] using e
  · obtain ⟨h1, h2⟩ := hb.sparse cb
    have h3 := ha.dense ca
    rw [inter_comm sa sb] at hcap ⊢
    obtain ⟨o, e, w⟩ := ds_intersect_block_loop_spec (r := r) (i := 0) (k := 0) (base := base) (out := out)
      (buf := buf) h3 h1 wb.2.2.2 hbase (by unfold inter at hcap; omega)
    rw [Nat.zero_add] at e
    refine ⟨o, ?_, Wrote.mono (by simpa [inter] using w) (by omega)⟩
    simpa [block_type, ca, cb, type_sparse, type_dense, block_pair, ds_intersect_block, inter] using e
  · have h1 := ha.dense ca
    have h3 := hb.dense cb
    have hand := h1.and h3
    have hf : (List.range (64 * 4)).filter (fun x => decide (x ∈ a.vals) && decide (x ∈ b.vals))
        = inter a.vals b.vals := by
      apply sorted_ext (range_sorted _ |>.filter _) (inter_sorted sa)
      intro x
      simp only [List.mem_filter, List.mem_range, Bool.and_eq_true, decide_eq_true_eq, mem_inter]
      exact ⟨fun h => h.2, fun h => ⟨wa.2.2.2 x h.1, h⟩⟩
    obtain ⟨o, e, w⟩ := decode_bitmap_spec (p := out) (out := buf) hand (b := base) (by omega)
      (by rw [hf]; omega) (by omega)
    rw [hf] at e w
    refine ⟨o, ?_, w.mono (by omega)⟩
    rw [← operate_bitmaps_eq] at e
    simpa [block_type, ca, cb, type_sparse, type_dense, block_pair, and_bitmaps,
      block_size_in_64bit_words] using e

theorem intersect_blocks_spec {dbg : Bool} {tab : Nat → List Nat} (ht : TabOk tab) {m : Mem}
    {l r base out : Nat} {a b : Blk} {buf : List Nat} (wa : a.WF) (wb : b.WF)
    (ha : BlkAt 31 m l a) (hb : BlkAt 31 m r b) (hbase : base + 256 ≤ 4294967296)
    (hcap : out + (inter a.vals b.vals).length + 8 ≤ buf.length) :
    ∃ buf', intersect_blocks dbg tab m l r a.vals.length b.vals.length base buf out
        = .ok ((inter a.vals b.vals).length, buf') ∧
      Wrote buf out ((inter a.vals b.vals).map (base + ·)) 8 buf' :=
  intersect_blocks_exact ht wa wb ha hb
    (fun ca cb _ => ⟨(ha.sparse ca).2.mono (ilane_le (List.length_pos_iff.mpr wa.2.1)),
      (hb.sparse cb).2.mono (ilane_le (List.length_pos_iff.mpr wb.2.1))⟩) hbase hcap

end Sliced
