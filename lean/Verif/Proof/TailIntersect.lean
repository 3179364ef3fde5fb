import Verif.Proof.Tail
import Verif.Proof.Intersection
/-! # The exact number of bytes that must be readable in pairwise_intersection -/
namespace Sliced

/-- defined (with a result as in `S`) when `T` holds, undefined when not -/
def Exact {α : Type} (T : Prop) (x : Res α) (S : α → Prop) : Prop :=
  (T → ∃ v, x = .ok v ∧ S v) ∧ (¬ T → x = .error .ub)

theorem Exact.congr {α : Type} {T T' : Prop} {x : Res α} {S : α → Prop} (h : Exact T x S)
    (ht : T ↔ T') : Exact T' x S :=
  ⟨fun t => h.1 (ht.mpr t), fun t => h.2 (fun t' => t (ht.mp t'))⟩

theorem Exact.of_ok {α : Type} {T : Prop} {x : Res α} {S : α → Prop} (ht : T)
    (h : ∃ v, x = .ok v ∧ S v) : Exact T x S :=
  ⟨fun _ => h, fun n => absurd ht n⟩

/-! ## Pairs with equal keys -/

/-- `C` holds for the elements of `A` and `B` with equal keys -/
def Pairs {α : Type} (key : α → Nat) (C : α → α → Prop) (A B : List α) : Prop :=
  ∀ a ∈ A, ∀ b ∈ B, key a = key b → C a b

section
variable {α : Type} {key : α → Nat} {C : α → α → Prop} {A B : List α}

theorem pairs_none (h : ∀ a ∈ A, ∀ b ∈ B, key a ≠ key b) : Pairs key C A B :=
  fun a ha b hb e => absurd e (h a ha b hb)

theorem pairs_drop_left {P : List α} (h : ∀ a ∈ P, ∀ b ∈ B, key a ≠ key b) :
    Pairs key C A B ↔ Pairs key C (P ++ A) B := by
  constructor
  · intro hp a ha b hb e
    rcases List.mem_append.mp ha with ha | ha
    · exact absurd e (h a ha b hb)
    · exact hp a ha b hb e
  · exact fun hp a ha => hp a (List.mem_append.mpr (Or.inr ha))

theorem pairs_drop_right {P : List α} (h : ∀ b ∈ P, ∀ a ∈ A, key a ≠ key b) :
    Pairs key C A B ↔ Pairs key C A (P ++ B) := by
  constructor
  · intro hp a ha b hb e
    rcases List.mem_append.mp hb with hb | hb
    · exact absurd e (h b hb a ha)
    · exact hp a ha b hb e
  · exact fun hp a ha b hb => hp a ha b (List.mem_append.mpr (Or.inr hb))

theorem pairs_cons {a b : α} (he : key a = key b) (ha : ∀ x ∈ A, key a < key x)
    (hb : ∀ x ∈ B, key b < key x) :
    (C a b ∧ Pairs key C A B) ↔ Pairs key C (a :: A) (b :: B) := by
  constructor
  · rintro ⟨h1, h2⟩ x hx y hy e
    rcases List.mem_cons.mp hx with rfl | hx
    · rcases List.mem_cons.mp hy with rfl | hy
      · exact h1
      · have := hb y hy; omega
    · rcases List.mem_cons.mp hy with rfl | hy
      · have := ha x hx; omega
      · exact h2 x hx y hy e
  · intro h
    exact ⟨h a List.mem_cons_self b List.mem_cons_self he,
      fun x hx y hy => h x (List.mem_cons_of_mem _ hx) y (List.mem_cons_of_mem _ hy)⟩

theorem pairs_swap {D : α → α → Prop} (h : ∀ a b, C a b ↔ D b a) :
    Pairs key C A B ↔ Pairs key D B A :=
  ⟨fun p b hb a ha e => (h a b).mp (p a ha b hb e.symm),
    fun p a ha b hb e => (h a b).mpr (p b hb a ha e.symm)⟩
end

/-! ## Blocks -/

/-- the vector code has all the bytes it reads of the data of two blocks -/
def BlkTail (El Er dl dr : Nat) (a b : Blk) : Prop :=
  a.vals.length < 31 → b.vals.length < 31 → ¬ (16 < a.vals.length ∧ 16 < b.vals.length) →
    dl + ilane a.vals.length ≤ El ∧ dr + ilane b.vals.length ≤ Er

theorem blkTail_swap {El Er dl dr : Nat} {a b : Blk} :
    BlkTail El Er dl dr a b ↔ BlkTail Er El dr dl b a :=
  ⟨fun h h1 h2 h3 => (h h2 h1 (fun h => h3 h.symm)).symm,
    fun h h1 h2 h3 => (h h2 h1 (fun h => h3 h.symm)).symm⟩

theorem wrs_total (v out : List Nat) (p : Nat) :
    (∃ o, wrs out p v = .ok o) ∨ wrs out p v = .error .ub := by
  induction v generalizing out p with
  | nil => exact Or.inl ⟨out, rfl⟩
  | cons x v ih =>
    unfold wrs wr
    by_cases h : p < out.length
    · rw [if_pos h]; exact ih _ _
    · rw [if_neg h]; exact Or.inr rfl

theorem intersect_step_total (tab : Nat → List Nat) (vl : List Nat) (cl : Nat) (vr : List Nat)
    (cr base size : Nat) (buf : List Nat) (out : Nat) :
    (∃ o, intersect_step tab vl cl vr cr base size buf out = .ok o) ∨
      intersect_step tab vl cl vr cr base size buf out = .error .ub := by
  unfold intersect_step storeu
  dsimp only
  rcases wrs_total (cvtAdd base (pshufb vr (tab (cmpestrm vl cl vr cr)))) buf out with ⟨o, e⟩ | e
  · rw [e, ok_bind]
    split
    · rcases wrs_total (cvtAdd base ((pshufb vr (tab (cmpestrm vl cl vr cr))).drop 8
        ++ List.replicate 8 0)) o (out + 8) with ⟨o', e'⟩ | e'
      · rw [e', ok_bind]; exact Or.inl ⟨_, rfl⟩
      · rw [e']; exact Or.inr rfl
    · exact Or.inl ⟨_, rfl⟩
  · rw [e]; exact Or.inr rfl

theorem lddqu_fence {m : Mem} {lo E a : Nat} (h : Fence m lo E) (h1 : lo ≤ a) (h2 : a ≤ E) :
    (a + 16 ≤ E ∧ ∃ v, lddqu m a = .ok v) ∨ (E < a + 16 ∧ lddqu m a = .error .ub) := by
  by_cases hr : a + 16 ≤ E
  · exact Or.inl ⟨hr, _, lddqu_spec (h.readable h1 hr)⟩
  · exact Or.inr ⟨by omega, lddqu_ub h.stop h2 (by omega)⟩

theorem ss_intersect_block_ub {dbg : Bool} {tab : Nat → List Nat} {m : Mem}
    {lol El lor Er l r cl cr base out : Nat} {buf : List Nat} (hl : Fence m lol El)
    (hr : Fence m lor Er) (h1 : lol ≤ l) (h2 : l + cl ≤ El) (h3 : lor ≤ r) (h4 : r + cr ≤ Er)
    (pl : 1 ≤ cl) (pr : 1 ≤ cr) (kl : cl < 31) (kr : cr < 31) (hc : ¬ (16 < cl ∧ 16 < cr))
    (hn : ¬ (l + ilane cl ≤ El ∧ r + ilane cr ≤ Er)) :
    ss_intersect_block dbg tab m l r cl cr base buf out = .error .ub := by
  unfold ss_intersect_block
  rw [cassert_of (by simp; omega), cassert_of (by simp; omega)]
  simp only [ok_bind]
  have e1 := lddqu_fence hl h1 (by omega)
  have e2 := lddqu_fence hr h3 (by omega)
  by_cases c1 : cl ≤ 16 ∧ cr ≤ 16
  · rw [if_pos c1]
    rw [ilane_small c1.1, ilane_small c1.2] at hn
    rcases e1 with ⟨g1, v, e1⟩ | ⟨-, e1⟩
    · rcases e2 with ⟨g2, -⟩ | ⟨-, e2⟩
      · omega
      · rw [e1, e2]; rfl
    · rw [e1]; rfl
  · rw [if_neg c1]
    by_cases c2 : cl ≤ 16 ∧ cr > 16
    · rw [if_pos c2]
      rw [ilane_small c2.1, ilane_large (by omega)] at hn
      rcases e1 with ⟨g1, v, e1⟩ | ⟨-, e1⟩
      · rcases e2 with ⟨g2, w, e2⟩ | ⟨g2, -⟩
        · rw [e1, ok_bind, e2, ok_bind]
          rcases intersect_step_total tab v cl w cr base 0 buf out with ⟨o, e⟩ | e
          · rw [e, ok_bind, lddqu_ub hr.stop (by omega) (by omega)]; rfl
          · rw [e]; rfl
        · omega
      · rw [e1]; rfl
    · rw [if_neg c2, if_pos (show cr ≤ 16 ∧ cl > 16 by omega)]
      rw [ilane_small (show cr ≤ 16 by omega), ilane_large (by omega)] at hn
      rcases e1 with ⟨g1, v, e1⟩ | ⟨g1, -⟩
      · rcases e2 with ⟨g2, w, e2⟩ | ⟨-, e2⟩
        · rw [e1, ok_bind, e2, ok_bind]
          rcases intersect_step_total tab v cl w cr base 0 buf out with ⟨o, e⟩ | e
          · rw [e, ok_bind, lddqu_ub hl.stop (by omega) (by omega)]; rfl
          · rw [e]; rfl
        · rw [e1, e2]; rfl
      · omega

theorem intersect_blocks_tail {dbg : Bool} {tab : Nat → List Nat} (ht : TabOk tab) {m : Mem}
    {lol El lor Er l r base out : Nat} {a b : Blk} {buf : List Nat} (hl : Fence m lol El)
    (hr : Fence m lor Er) (wa : a.WF) (wb : b.WF) (ha : BlkAt 0 m l a) (hb : BlkAt 0 m r b)
    (h1 : lol ≤ l) (h2 : l + a.size ≤ El) (h3 : lor ≤ r) (h4 : r + b.size ≤ Er)
    (hbase : base + 256 ≤ 4294967296)
    (hcap : out + (inter a.vals b.vals).length + 8 ≤ buf.length) :
    Exact (BlkTail El Er l r a b)
      (intersect_blocks dbg tab m l r a.vals.length b.vals.length base buf out)
      (fun v => v.1 = (inter a.vals b.vals).length ∧
        Wrote buf out ((inter a.vals b.vals).map (base + ·)) 8 v.2) := by
  constructor
  · intro hT
    obtain ⟨o, e, w⟩ := intersect_blocks_exact (dbg := dbg) ht wa wb ha hb
      (fun ca cb hc => ⟨hl.readable h1 (hT ca cb hc).1, hr.readable h3 (hT ca cb hc).2⟩) hbase hcap
    exact ⟨_, e, rfl, w⟩
  · intro hT
    by_cases hall : a.vals.length < 31 ∧ b.vals.length < 31 ∧
        ¬ (16 < a.vals.length ∧ 16 < b.vals.length)
    · obtain ⟨ca, cb, hc⟩ := hall
      have s1 : a.size = a.vals.length := by unfold Blk.size bytes_by_cardinality; rw [if_pos ca]
      have s2 : b.size = b.vals.length := by unfold Blk.size bytes_by_cardinality; rw [if_pos cb]
      rw [s1] at h2; rw [s2] at h4
      have := ss_intersect_block_ub (dbg := dbg) (tab := tab) (base := base) (out := out)
        (buf := buf) hl hr h1 h2 h3 h4 wa.card_pos wb.card_pos ca cb hc
        (fun h => hT (fun _ _ _ => h))
      unfold intersect_blocks
      simpa [block_type, ca, cb] using this
    · exact absurd (fun ca cb hc => absurd ⟨ca, cb, hc⟩ hall) hT

/-- the data of the block with id `k` begins at `P k` -/
def BlksPlaced (P : Nat → Nat) : Nat → List Blk → Prop
  | _, [] => True
  | d, b :: bs => P b.id = d ∧ BlksPlaced P (d + b.size) bs

theorem BlksPlaced.append {P : Nat → Nat} {d : Nat} {A B : List Blk} (h : BlksPlaced P d (A ++ B)) :
    BlksPlaced P (d + blkBytes A) B := by
  induction A generalizing d with
  | nil => exact h
  | cons a A ih =>
    have := ih h.2
    have hbb : blkBytes (a :: A) = a.size + blkBytes A := by simp [blkBytes]
    rwa [hbb, ← Nat.add_assoc]

theorem blkBytes_append (A B : List Blk) : blkBytes (A ++ B) = blkBytes A + blkBytes B := by
  simp [blkBytes]

theorem ss_intersect_chunk_loop_tail {dbg : Bool} {tab : Nat → List Nat} (ht : TabOk tab) {m : Mem}
    {lol El lor Er end_l end_r base : Nat} {P Q : Nat → Nat} (fl : Fence m lol El)
    (fr : Fence m lor Er) (f : Nat) {l dl r dr tmp : Nat} {L R : List Blk} {buf : List Nat}
    (hL : L ≠ []) (hR : R ≠ []) (wL : BlocksWF L) (wR : BlocksWF R) (al : BlocksAt 0 m l dl L)
    (ar : BlocksAt 0 m r dr R) (pl : BlksPlaced P dl L) (pr : BlksPlaced Q dr R)
    (b1 : lol ≤ dl) (b2 : dl + blkBytes L ≤ El) (b3 : lor ≤ dr) (b4 : dr + blkBytes R ≤ Er)
    (el : l + 2 * L.length = end_l) (er : r + 2 * R.length = end_r)
    (hf : L.length + R.length < f) (hb : base + 65536 ≤ 4294967296)
    (hcap : tmp + (inter (blkElems L) (blkElems R)).length + 8 ≤ buf.length) :
    Exact (Pairs Blk.id (fun a b => BlkTail El Er (P a.id) (Q b.id) a b) L R)
      (ss_intersect_chunk_loop dbg tab m end_l end_r base f l dl r dr buf tmp)
      (fun v => v.1 = tmp + (inter (blkElems L) (blkElems R)).length ∧
        Wrote buf tmp ((inter (blkElems L) (blkElems R)).map (base + ·)) 8 v.2) := by
  induction f generalizing l dl r dr tmp L R buf with
  | zero => omega
  | succ f ih =>
    obtain ⟨k, R, rfl⟩ := List.exists_cons_of_ne_nil hR
    have hRk := wR.ge_head
    obtain ⟨o, e1, s1⟩ := skip_lower_blocks_spec (m := m) (q := r) ar.1 (end_l - l + 1) hL wL al el
      (by omega)
    simp only [ss_intersect_chunk_loop, e1, ok_bind]
    match o, s1 with
    | none, s1 =>
      have hne : ∀ a ∈ L, ∀ b ∈ k :: R, a.id ≠ b.id := fun a ha b hb => by
        have := s1 a ha; have := hRk b hb; omega
      have : inter (blkElems L) (blkElems (k :: R)) = [] := inter_flat_nil (blk_sep wL wR) hne
      rw [this]
      exact Exact.of_ok (pairs_none hne) ⟨_, rfl, rfl, Wrote.nil _ _ _⟩
    | some (l', dl'), ⟨pre, v, V, hLV, hpre, hkv, hl', al', hdl⟩ =>
      subst hLV
      have i1 : inter (blkElems (pre ++ v :: V)) (blkElems (k :: R))
          = inter (blkElems (v :: V)) (blkElems (k :: R)) :=
        inter_drop_left (blk_sep wL wR)
          (fun a ha b hb => Nat.lt_of_lt_of_le (hpre a ha) (hRk b hb))
      rw [i1] at hcap ⊢
      have wL' := wL.append_right
      have hVv := wL'.ge_head
      have pl' := pl.append
      rw [← hdl] at pl'
      rw [blkBytes_append] at b2
      refine Exact.congr ?_ (pairs_drop_left (P := pre) (fun a ha b hb => by
        have := hpre a ha; have := hRk b hb; omega))
      simp only [List.length_append, List.length_cons] at el hf er
      obtain ⟨o, e2, s2⟩ := skip_lower_blocks_spec (m := m) (q := l') (p := r) (d := dr) al'.1
        (end_r - r + 1) (bs := k :: R) (end_p := end_r) (by simp) wR ar (by simp; omega)
        (by simp; omega)
      simp only [e2, ok_bind]
      match o, s2 with
      | none, s2 =>
        have hne : ∀ a ∈ v :: V, ∀ b ∈ k :: R, a.id ≠ b.id := fun a ha b hb => by
          have := s2 b hb; have := hVv a ha; omega
        have : inter (blkElems (v :: V)) (blkElems (k :: R)) = [] :=
          inter_flat_nil (blk_sep wL' wR) hne
        rw [this]
        exact Exact.of_ok (pairs_none hne) ⟨_, rfl, rfl, Wrote.nil _ _ _⟩
      | some (r', dr'), ⟨pre2, w, W, hRW, hpre2, hvw, hr', ar', hdr⟩ =>
        have hlenR : R.length + 1 = pre2.length + (W.length + 1) := by
          have := congrArg List.length hRW
          simpa using this
        rw [hRW] at hcap ar wR pr b4 ⊢
        have i2 : inter (blkElems (v :: V)) (blkElems (pre2 ++ w :: W))
            = inter (blkElems (v :: V)) (blkElems (w :: W)) :=
          inter_drop_right (blk_sep wL' wR)
            (fun a ha b hb => Nat.lt_of_lt_of_le (hpre2 b hb) (hVv a ha))
        rw [i2] at hcap ⊢
        have pr' := pr.append
        rw [← hdr] at pr'
        rw [blkBytes_append] at b4
        refine Exact.congr ?_ (pairs_drop_right (P := pre2) (fun b hb a ha => by
          have := hpre2 b hb; have := hVv a ha; omega))
        have wR' := wR.append_right
        simp only [al'.1, ar'.1, ok_bind]
        by_cases hvw' : v.id = w.id
        · have i3 : inter (blkElems (v :: V)) (blkElems (w :: W))
              = (inter v.vals w.vals).map (v.id * 256 + ·) ++ inter (blkElems V) (blkElems W) := by
            have := inter_cons_cons (blk_sep wL' wR') hvw' wL'.head_lt wR'.head_lt
            rw [← inter_map_add]
            rw [show w.vals.map (v.id * 256 + ·) = w.elems by rw [hvw']; rfl]
            exact this
          rw [i3, List.length_append, List.length_map] at hcap
          rw [i3, List.length_append, List.length_map]
          rw [blkBytes_cons] at b2 b4
          have hid := wL'.head.1
          have hu : u32 (base + v.id * 256) = base + v.id * 256 := u32_lt (by omega)
          have cv := wL'.head.card_pos
          have cw := wR'.head.card_pos
          obtain ⟨t1, t2⟩ := intersect_blocks_tail (dbg := dbg) ht fl fr wL'.head wR'.head al'.2.2.1
            ar'.2.2.1 (by omega) (by omega) (by omega) (by omega) (base := base + v.id * 256)
            (out := tmp) (buf := buf) (by omega) (by omega)
          refine Exact.congr ?_ (pairs_cons hvw' wL'.head_lt wR'.head_lt)
          rw [pl'.1, pr'.1]
          have hmap : (inter v.vals w.vals).map (base + v.id * 256 + ·)
              = ((inter v.vals w.vals).map (v.id * 256 + ·)).map (base + ·) := by
            rw [List.map_map]
            apply List.map_congr_left
            intro x _
            simp only [Function.comp]; omega
          rw [if_pos hvw']
          simp only [al'.2.1, ar'.2.1, ok_bind, Nat.sub_add_cancel cv, Nat.sub_add_cancel cw, hu]
          by_cases hT : BlkTail El Er dl' dr' v w
          · obtain ⟨⟨n1, o1⟩, e3, hn, w3⟩ := t1 hT
            dsimp only at hn w3
            subst hn
            have lo := w3.length
            rw [hmap] at w3
            simp only [e3, ok_bind]
            by_cases c : l' + 2 = end_l ∨ r' + 2 = end_r
            · have hnil : V = [] ∨ W = [] := by
                rcases c with c | c
                · exact Or.inl (List.length_eq_zero_iff.mp (by omega))
                · exact Or.inr (List.length_eq_zero_iff.mp (by omega))
              have : inter (blkElems V) (blkElems W) = [] := by
                rcases hnil with rfl | rfl
                · rfl
                · exact inter_nil _
              rw [if_pos c, this, List.append_nil]
              refine Exact.of_ok ⟨hT, pairs_none ?_⟩ ⟨_, rfl, rfl, w3⟩
              rcases hnil with rfl | rfl
              · exact fun a ha => nomatch ha
              · exact fun a _ b hb => nomatch hb
            · rw [if_neg c]
              have := ih (l := l' + 2) (dl := dl' + v.size) (r := r' + 2)
                (dr := dr' + w.size) (tmp := tmp + (inter v.vals w.vals).length) (L := V) (R := W)
                (buf := o1) (by intro h0; subst h0; simp at el; omega)
                (by intro h0; subst h0; simp at hlenR; omega) wL'.tail wR'.tail al'.2.2.2 ar'.2.2.2
                pl'.2 pr'.2 (by omega) (by omega) (by omega) (by omega)
                (by omega) (by omega) (by omega) (by omega)
              unfold Blk.size at this
              refine ⟨fun h => ?_, fun h => this.2 (fun h' => h ⟨hT, h'⟩)⟩
              obtain ⟨v', e4, hn, w4⟩ := this.1 h.2
              refine ⟨v', e4, by rw [hn, Nat.add_assoc], ?_⟩
              rw [List.map_append]
              exact Wrote.append w3 (by simpa using w4)
          · exact ⟨fun h => absurd h.1 hT, fun _ => by rw [t2 hT]; rfl⟩
        · rw [if_neg hvw']
          have hp2 : 0 < pre2.length := by
            rcases Nat.eq_zero_or_pos pre2.length with h0 | h0
            · have : pre2 = [] := List.length_eq_zero_iff.mp h0
              subst this
              simp only [List.nil_append, List.cons.injEq] at hRW
              rw [hRW.1] at hkv
              omega
            · exact h0
          exact ih (by simp) (by simp) wL' wR' al' ar' pl' pr' (by omega) (by omega) (by omega)
            (by omega) (by simp; omega) (by simp; omega) (by simp; omega) hcap

/-- where the data of the blocks is, for blocks with the first byte of data at `d` -/
def blkPos (d : Nat) (bs : List Blk) (k : Nat) : Nat :=
  d + blkBytes (bs.filter (fun b => decide (b.id < k)))

theorem blksPlaced_blkPos {d : Nat} {bs : List Blk} (hw : BlocksWF bs) : BlksPlaced (blkPos d bs) d bs := by
  suffices h : ∀ pre post, BlocksWF (pre ++ post) →
      BlksPlaced (blkPos d (pre ++ post)) (d + blkBytes pre) post by
    simpa [blkBytes] using h [] bs hw
  intro pre post h
  induction post generalizing pre with
  | nil => trivial
  | cons b post ih =>
    refine ⟨?_, ?_⟩
    · unfold blkPos
      have hs := List.pairwise_append.mp h.1
      rw [List.filter_append, List.filter_eq_self.mpr, List.filter_eq_nil_iff.mpr, List.append_nil]
      · intro x hx
        have := h.append_right.ge_head x hx
        simp only [decide_eq_true_eq]; omega
      · intro x hx
        have := hs.2.2 x hx b List.mem_cons_self
        simpa using this
    · have h' : BlocksWF ((pre ++ [b]) ++ post) := by simpa using h
      have := ih (pre ++ [b]) h'
      rw [blkBytes_append, blkBytes_cons] at this
      simpa [blkBytes, Nat.add_assoc] using this

theorem ss_intersect_chunk_tail {dbg : Bool} {tab : Nat → List Nat} (ht : TabOk tab) {m : Mem}
    {lol El lor Er base l r out : Nat} {L R : List Blk} {buf : List Nat} (fl : Fence m lol El)
    (fr : Fence m lor Er) (hL : L ≠ []) (hR : R ≠ []) (wL : BlocksWF L) (wR : BlocksWF R)
    (al : BlocksAt 0 m l (l + 2 * L.length) L) (ar : BlocksAt 0 m r (r + 2 * R.length) R)
    (b1 : lol ≤ l) (b2 : l + (2 * L.length + blkBytes L) ≤ El) (b3 : lor ≤ r)
    (b4 : r + (2 * R.length + blkBytes R) ≤ Er) (hb : base + 65536 ≤ 4294967296)
    (hcap : out + (inter (blkElems L) (blkElems R)).length + 8 ≤ buf.length) :
    Exact (Pairs Blk.id (fun a b => BlkTail El Er (blkPos (l + 2 * L.length) L a.id)
        (blkPos (r + 2 * R.length) R b.id) a b) L R)
      (ss_intersect_chunk dbg tab m l r L.length R.length base buf out)
      (fun v => v.1 = (inter (blkElems L) (blkElems R)).length ∧
        Wrote buf out ((inter (blkElems L) (blkElems R)).map (base + ·)) 8 v.2) := by
  have h1 := List.length_pos_iff.mpr hL
  have h2 := wL.length_le
  have h3 := List.length_pos_iff.mpr hR
  have h4 := wR.length_le
  obtain ⟨t1, t2⟩ := ss_intersect_chunk_loop_tail (dbg := dbg) ht fl fr (end_l := l + 2 * L.length)
    (end_r := r + 2 * R.length) (tmp := out) (buf := buf)
    (L.length + R.length + 1) hL hR wL wR al ar (blksPlaced_blkPos wL) (blksPlaced_blkPos wR)
    (by omega) (by omega) (by omega) (by omega) rfl rfl (by omega) hb hcap
  unfold ss_intersect_chunk
  rw [cassert_of (by simp; omega), cassert_of (by simp; omega)]
  simp only [ok_bind, show L.length * 2 = 2 * L.length by omega,
    show R.length * 2 = 2 * R.length by omega]
  constructor
  · intro hT
    obtain ⟨⟨n, o⟩, e, hn, w⟩ := t1 hT
    dsimp only at hn w
    subst hn
    exact ⟨_, by rw [e]; rfl, Nat.add_sub_cancel_left _ _, w⟩
  · intro hT
    rw [t2 hT]; rfl

/-! ## Chunks -/

/-- all the bytes that are read for two chunks of the same slice -/
def BodyTail (El Er dl dr : Nat) : Body → Body → Prop
  | .sparse as, .sparse bs => Pairs Blk.id (fun a b => BlkTail El Er
      (blkPos (dl + 2 * as.length) as a.id) (blkPos (dr + 2 * bs.length) bs b.id) a b) as bs
  | .sparse as, .full => dl + (2 * as.length + blocksReach as) ≤ El
  | .full, .sparse bs => dr + (2 * bs.length + blocksReach bs) ≤ Er
  | _, _ => True

theorem blocksNeed_slack (bs : List Blk) (hw : BlocksWF bs) :
    blocksNeed bs ≤ (blkElems bs).length + 23 := by
  induction bs with
  | nil => exact Nat.zero_le _
  | cons b bs ih =>
    have := ih hw.tail
    have hc := hw.head.card_pos
    have hr := room_le b.vals.length
    rw [blkElems_cons, List.length_append, Blk.elems_length]
    unfold blocksNeed
    omega

/-- a chunk stored at `d` inside a fence -/
structure BodyIn (m : Mem) (lo E d : Nat) (b : Body) : Prop where
  at_ : BodyAt 0 m d b
  lower : lo ≤ d
  upper : d + b.off ≤ E

theorem intersect_chunks_tail {dbg : Bool} {tab : Nat → List Nat} (ht : TabOk tab) {m : Mem}
    {lol El lor Er : Nat} (fl : Fence m lol El) (fr : Fence m lor Er)
    {Bl Br : Nat → Chk → Prop} {il ir : It} {a b : Chk} {L R : List Chk} {base out : Nat}
    {x buf : List Nat} (hl : ItOnP Bl m il (a :: L)) (hr : ItOnP Br m ir (b :: R))
    (ha : BodyIn m lol El il.data a.body) (hb' : BodyIn m lor Er ir.data b.body)
    (hb : base + 65536 ≤ 4294967296) (hx : x.length = 1024)
    (hcap : out + (inter a.body.vals b.body.vals).length + 23 ≤ buf.length) :
    Exact (BodyTail El Er il.data ir.data a.body b.body)
      (intersect_chunks dbg tab m il ir base x buf out)
      (fun v => v.1 = (inter a.body.vals b.body.vals).length ∧ v.2.1.length = 1024 ∧
        Wrote buf out ((inter a.body.vals b.body.vals).map (base + ·)) 23 v.2.2) := by
  have wa := hl.wf.head.2
  have wb := hr.wf.head.2
  have sa := wa.sorted
  have sb := wb.sorted
  have ba := wa.bound
  have bb := wb.bound
  have c1024 : chunk_size_in_64bit_words = 1024 := rfl
  obtain ⟨ha, la, ua⟩ := ha
  obtain ⟨hb', lb, ub⟩ := hb'
  unfold intersect_chunks
  cases ea : a.body with
  | full =>
    rw [hl.type_full ea]
    rw [ea] at hcap wa sa ba ha
    cases eb : b.body with
    | full =>
      rw [hr.type_full eb]
      rw [eb] at hcap
      have hv : inter Body.full.vals Body.full.vals = List.range 65536 :=
        inter_full_right (fun x hx => List.mem_range.mp hx)
      rw [hv] at hcap ⊢
      rw [List.length_range] at hcap ⊢
      obtain ⟨o, e, w⟩ := decode_full_chunk_spec (p := out) (out := buf) hb (by omega)
      refine Exact.of_ok trivial ⟨(65536, x, o), ?_, rfl, hx, w.mono (by omega)⟩
      simp [type_sparse, type_dense, chunk_pair, e, type_full]
    | dense vs =>
      rw [hr.type_dense eb]
      rw [eb] at hcap wb sb bb hb'
      rw [show inter Body.full.vals (Body.dense vs).vals = vs from inter_full_left sb bb] at hcap ⊢
      obtain ⟨o, e, w⟩ := decode_dense_spec (p := out) (out := buf) wb hb' hb (by omega)
      refine Exact.of_ok trivial ⟨(vs.length, x, o), ?_, rfl, hx, w.mono (by omega)⟩
      simp [type_sparse, type_dense, chunk_pair, e, type_full, c1024]
    | sparse bs =>
      rw [hr.type_sparse eb]
      have hbl := hr.blocks_sparse eb
      rw [eb] at hcap wb sb bb hb' ub
      rw [show inter Body.full.vals (Body.sparse bs).vals = blkElems bs from
        inter_full_left sb bb] at hcap ⊢
      have hn := blocksNeed_slack bs wb.2
      obtain ⟨t1, t2⟩ := decode_sparse_chunk_tail (dbg := dbg) (p := out) (out := buf) fr wb.1 wb.2
        hb' lb ub hb (by omega)
      constructor
      · intro hT
        obtain ⟨o, e, w⟩ := t1 ⟨by omega, hT⟩
        refine ⟨((blkElems bs).length, x, o), ?_, rfl, hx, w⟩
        simp [type_sparse, type_dense, chunk_pair, e, type_full, hbl]
      · intro hT
        have e := t2 (fun h => hT h.2)
        simp [type_sparse, type_dense, chunk_pair, e, type_full, hbl]
  | dense us =>
    rw [hl.type_dense ea]
    rw [ea] at hcap wa sa ba ha
    cases eb : b.body with
    | full =>
      rw [hr.type_full eb]
      rw [eb] at hcap
      rw [show inter (Body.dense us).vals Body.full.vals = us from inter_full_right ba] at hcap ⊢
      obtain ⟨o, e, w⟩ := decode_dense_spec (p := out) (out := buf) wa ha hb (by omega)
      refine Exact.of_ok trivial ⟨(us.length, x, o), ?_, rfl, hx, w.mono (by omega)⟩
      simp [type_sparse, type_dense, chunk_pair, e, type_full, c1024]
    | dense vs =>
      rw [hr.type_dense eb]
      rw [eb] at hcap wb sb bb hb'
      obtain ⟨o, e, w⟩ := and_bitmaps_spec ha hb' sa ba (base := base) (out := out) (buf := buf) hb
        (by omega) (by simp only [Body.vals] at hcap ⊢; omega)
      refine Exact.of_ok trivial ⟨((inter us vs).length, x, o), ?_, rfl, hx, w.mono (by omega)⟩
      simp [type_sparse, type_dense, chunk_pair, e, type_full, c1024]
    | sparse bs =>
      rw [hr.type_sparse eb]
      have hbl := hr.blocks_sparse eb
      rw [eb] at hcap wb sb bb hb'
      obtain ⟨x', o, e, lx, w⟩ := ds_intersect_chunk_spec (dbg := dbg) wa ha wb.1 wb.2 hb' hx hb
        (out := out) (buf := buf) (by simp only [Body.vals] at hcap ⊢; omega)
      refine Exact.of_ok trivial ⟨((inter us (blkElems bs)).length, x', o), ?_, rfl, lx,
        w.mono (by omega)⟩
      simp [type_sparse, type_dense, chunk_pair, e, type_full, hbl]
  | sparse as =>
    rw [hl.type_sparse ea]
    have hal := hl.blocks_sparse ea
    rw [ea] at hcap wa sa ba ha ua
    cases eb : b.body with
    | full =>
      rw [hr.type_full eb]
      rw [eb] at hcap
      rw [show inter (Body.sparse as).vals Body.full.vals = blkElems as from
        inter_full_right ba] at hcap ⊢
      have hn := blocksNeed_slack as wa.2
      obtain ⟨t1, t2⟩ := decode_sparse_chunk_tail (dbg := dbg) (p := out) (out := buf) fl wa.1 wa.2
        ha la ua hb (by omega)
      constructor
      · intro hT
        obtain ⟨o, e, w⟩ := t1 ⟨by omega, hT⟩
        refine ⟨((blkElems as).length, x, o), ?_, rfl, hx, w⟩
        simp [type_sparse, type_dense, chunk_pair, e, type_full, hal]
      · intro hT
        have e := t2 (fun h => hT h.2)
        simp [type_sparse, type_dense, chunk_pair, e, type_full, hal]
    | dense vs =>
      rw [hr.type_dense eb]
      rw [eb] at hcap wb sb bb hb'
      rw [inter_comm sa sb] at hcap ⊢
      obtain ⟨x', o, e, lx, w⟩ := ds_intersect_chunk_spec (dbg := dbg) wb hb' wa.1 wa.2 ha hx hb
        (out := out) (buf := buf) (by simp only [Body.vals] at hcap ⊢; omega)
      refine Exact.of_ok trivial ⟨((inter vs (blkElems as)).length, x', o), ?_, rfl, lx,
        w.mono (by omega)⟩
      simp [type_sparse, type_dense, chunk_pair, e, type_full, hal]
    | sparse bs =>
      rw [hr.type_sparse eb]
      have hbl := hr.blocks_sparse eb
      rw [eb] at hcap wb sb bb hb' ub
      by_cases hlt : as.length < bs.length
      · obtain ⟨t1, t2⟩ := ss_intersect_chunk_tail (dbg := dbg) ht fl fr wa.1 wb.1 wa.2 wb.2 ha hb'
          la ua lb ub hb (out := out) (buf := buf) (by simp only [Body.vals] at hcap ⊢; omega)
        constructor
        · intro hT
          obtain ⟨⟨n, o⟩, e, hn, w⟩ := t1 hT
          refine ⟨(n, x, o), ?_, hn, hx, w.mono (by omega)⟩
          simp [type_sparse, chunk_pair, e, hbl, hal, hlt]
        · intro hT
          have e := t2 hT
          simp [type_sparse, chunk_pair, e, hbl, hal, hlt]
      · rw [inter_comm sa sb] at hcap ⊢
        obtain ⟨t1, t2⟩ := (ss_intersect_chunk_tail (dbg := dbg) ht fr fl wb.1 wa.1 wb.2 wa.2 hb' ha
          lb ub la ua hb (out := out) (buf := buf)
          (by simp only [Body.vals] at hcap ⊢; omega)).congr
          (pairs_swap (fun _ _ => blkTail_swap))
        constructor
        · intro hT
          obtain ⟨⟨n, o⟩, e, hn, w⟩ := t1 hT
          refine ⟨(n, x, o), ?_, hn, hx, w.mono (by omega)⟩
          simp [type_sparse, chunk_pair, e, hbl, hal, hlt]
        · intro hT
          have e := t2 hT
          simp [type_sparse, chunk_pair, e, hbl, hal, hlt]

theorem pairs_fromId_left {C : Chk → Chk → Prop} {A B : List Chk} {k : Nat}
    (h : ∀ b ∈ B, k ≤ b.id) : Pairs Chk.id C (fromId k A) B ↔ Pairs Chk.id C A B := by
  rcases fromId_cases k A with ⟨h1, h2⟩ | ⟨pre, c, post, h1, h2, h3, _⟩
  · rw [h1]
    exact ⟨fun _ => pairs_none (fun a ha b hb => by have := h2 a ha; have := h b hb; omega),
      fun _ a ha => nomatch ha⟩
  · rw [h2]; subst h1
    exact pairs_drop_left (fun a ha b hb => by have := h3 a ha; have := h b hb; omega)

theorem pairs_fromId_right {C : Chk → Chk → Prop} {A B : List Chk} {k : Nat}
    (h : ∀ a ∈ A, k ≤ a.id) : Pairs Chk.id C A (fromId k B) ↔ Pairs Chk.id C A B := by
  rcases fromId_cases k B with ⟨h1, h2⟩ | ⟨pre, c, post, h1, h2, h3, _⟩
  · rw [h1]
    exact ⟨fun _ => pairs_none (fun a ha b hb => by have := h2 b hb; have := h a ha; omega),
      fun _ a _ b hb => nomatch hb⟩
  · rw [h2]; subst h1
    exact pairs_drop_right (fun b hb a ha => by have := h3 b hb; have := h a ha; omega)

/-- the chunk with id `k` is stored at `P k` inside a fence -/
def ChkIn (m : Mem) (lo E : Nat) (P : Nat → Nat) (d : Nat) (c : Chk) : Prop :=
  BodyIn m lo E d c.body ∧ d = P c.id

theorem pairwise_intersection_loop_tail {dbg : Bool} {tab : Nat → List Nat} (ht : TabOk tab)
    {m : Mem} {lol El lor Er : Nat} {P Q : Nat → Nat} (fl : Fence m lol El) (fr : Fence m lor Er)
    (f : Nat) {il ir : It} {L R : List Chk} {out : Nat}
    {x buf : List Nat} (hl : ItOnP (ChkIn m lol El P) m il L) (hr : ItOnP (ChkIn m lor Er Q) m ir R)
    (hx : x.length = 1024) (hf : L.length + R.length < f)
    (hcap : out + (inter (seqElems L) (seqElems R)).length + 23 ≤ buf.length) :
    Exact (Pairs Chk.id (fun a b => BodyTail El Er (P a.id) (Q b.id) a.body b.body) L R)
      (pairwise_intersection_loop dbg tab m f il ir x buf out)
      (fun v => v.1 = out + (inter (seqElems L) (seqElems R)).length ∧ v.2.1.length = 1024 ∧
        Wrote buf out (inter (seqElems L) (seqElems R)) 23 v.2.2) := by
  induction f generalizing il ir L R out x buf with
  | zero => omega
  | succ f ih =>
    cases L with
    | nil =>
      refine Exact.of_ok (fun a ha => nomatch ha) ⟨(out, x, buf), ?_, rfl, hx, Wrote.nil _ _ _⟩
      simp [pairwise_intersection_loop, hl.has_next_nil]
    | cons a L =>
      cases R with
      | nil =>
        rw [show seqElems [] = [] from rfl, inter_nil]
        refine Exact.of_ok (fun a _ b hb => nomatch hb) ⟨(out, x, buf), ?_, rfl, hx, Wrote.nil _ _ _⟩
        simp [pairwise_intersection_loop, hr.has_next_nil]
      | cons b R =>
        have ia := hl.wf.head.1
        have ib := hr.wf.head.1
        simp only [pairwise_intersection_loop, hl.has_next, hr.has_next, Bool.and_self, if_true,
          hl.id, hr.id, ok_bind, u16_lt (show a.id < 65536 by omega),
          u16_lt (show b.id < 65536 by omega)]
        by_cases hab : a.id = b.id
        · rw [if_pos hab]
          have i3 : inter (seqElems (a :: L)) (seqElems (b :: R))
              = inter a.elems b.elems ++ inter (seqElems L) (seqElems R) :=
            inter_cons_cons (chk_sep hl.wf hr.wf) hab hl.wf.head_lt hr.wf.head_lt
          rw [i3, inter_elems hab, List.length_append, List.length_map] at hcap
          rw [i3, inter_elems hab, List.length_append, List.length_map]
          rw [u32_lt (show a.id * 65536 < 4294967296 by omega)]
          obtain ⟨pa, qa⟩ := hl.at_.2.1
          obtain ⟨pb, qb⟩ := hr.at_.2.1
          obtain ⟨t1, t2⟩ := intersect_chunks_tail (dbg := dbg) ht fl fr hl hr pa pb
            (base := a.id * 65536) (out := out) (buf := buf) (by omega) hx (by omega)
          refine Exact.congr ?_ (pairs_cons hab hl.wf.head_lt hr.wf.head_lt)
          rw [← qa, ← qb]
          by_cases hT : BodyTail El Er il.data ir.data a.body b.body
          · obtain ⟨⟨n, x1, o1⟩, e1, hn, lx1, w1⟩ := t1 hT
            dsimp only at hn lx1 w1
            subst hn
            have lo := w1.length
            obtain ⟨il', n1, hl', -⟩ := hl.next
            obtain ⟨ir', n2, hr', -⟩ := hr.next
            simp only [List.length_cons] at hf
            have k := ih (il := il') (ir := ir') (x := x1) (buf := o1)
              (out := out + (inter a.body.vals b.body.vals).length) hl' hr' lx1 (by omega) (by omega)
            simp only [e1, ok_bind, n1, n2]
            refine ⟨fun h => ?_, fun h => k.2 (fun h' => h ⟨hT, h'⟩)⟩
            obtain ⟨v, e2, hv, lx2, w2⟩ := k.1 h.2
            refine ⟨v, e2, by rw [hv, Nat.add_assoc], lx2, ?_⟩
            exact Wrote.append w1 (by simpa using w2)
          · exact ⟨fun h => absurd h.1 hT, fun _ => by rw [t2 hT]; rfl⟩
        · rw [if_neg hab]
          by_cases hlt : a.id < b.id
          · rw [if_pos hlt]
            rw [inter_fromId_left hl.wf hr.wf hr.wf.ge_head] at hcap ⊢
            obtain ⟨it', e, hit, -⟩ := It.advance_spec (lb := b.id) hl
            have := fromId_length_lt (A := L) hlt
            rw [e, ok_bind]
            exact (ih (il := it') (ir := ir) (x := x) (buf := buf) (out := out) hit hr hx (by omega)
              hcap).congr (pairs_fromId_left hr.wf.ge_head)
          · rw [if_neg hlt]
            rw [inter_fromId_right hl.wf hr.wf hl.wf.ge_head] at hcap ⊢
            obtain ⟨it', e, hit, -⟩ := It.advance_spec (lb := a.id) hr
            have := fromId_length_lt (A := R) (show b.id < a.id by omega)
            rw [e, ok_bind]
            exact (ih (il := il) (ir := it') (x := x) (buf := buf) (out := out) hl hit hx (by omega)
              hcap).congr (pairs_fromId_right hl.wf.ge_head)

theorem pairwise_intersection_tail {dbg : Bool} {tab : Nat → List Nat} (ht : TabOk tab)
    {m : Mem} {lol El lor Er : Nat} {P Q : Nat → Nat} (fl : Fence m lol El) (fr : Fence m lor Er)
    {l r : SSeq} {L R : List Chk} {out : Nat} {x buf : List Nat}
    (hl : SeqAtP (ChkIn m lol El P) m l L) (hr : SeqAtP (ChkIn m lor Er Q) m r R)
    (hx : x.length = 1024)
    (hcap : out + (inter (seqElems L) (seqElems R)).length + 23 ≤ buf.length) :
    Exact (Pairs Chk.id (fun a b => BodyTail El Er (P a.id) (Q b.id) a.body b.body) L R)
      (pairwise_intersection dbg tab m l r x buf out)
      (fun v => v.1 = (inter (seqElems L) (seqElems R)).length ∧ v.2.1.length = 1024 ∧
        Wrote buf out (inter (seqElems L) (seqElems R)) 23 v.2.2) := by
  obtain ⟨t1, t2⟩ := pairwise_intersection_loop_tail (dbg := dbg) ht fl fr
    (l.chunks + r.chunks + 1) hl.begin hr.begin (out := out) (buf := buf) hx
    (by rw [hl.chunks, hr.chunks]; omega) hcap
  unfold pairwise_intersection
  constructor
  · intro hT
    obtain ⟨⟨n, x1, o1⟩, e1, hn, lx1, w1⟩ := t1 hT
    dsimp only at hn lx1 w1
    subst hn
    refine ⟨_, by rw [e1]; rfl, Nat.add_sub_cancel_left _ _, lx1, w1⟩
  · intro hT
    rw [t2 hT]; rfl

end Sliced
