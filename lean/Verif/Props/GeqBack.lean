import Verif.Props.GeqAligned
import Verif.Props.Histogram
import Verif.Proof.GeqBack
import Verif.Proof.GeqCount
/-!
# `next_geq_enumerator`: what it answers when the bounds go back (C80)

The iterator never goes back, and neither does the position inside the slice it is in.  So a bound is
raised before it is answered: to the beginning `C` of the current slice if it is not above it, and
otherwise to the beginning `B` of the block reached in the current slice.
-/
namespace Sliced

variable {dbg dbg' : Bool} {xs : List Nat} {pad : Nat} {m : Mem} {s : SSeq}

/-- The answers to the bounds `vs` of an enumerator in the slice beginning at `C`, at the block
beginning at `B`: once there is no answer, there never is one again. -/
def geqBack (xs : List Nat) : (C B : Nat) → List Nat → List Nat
  | _, _, [] => []
  | C, B, w :: ws =>
    match xs.find? (fun x => decide (backBound C B w ≤ x)) with
    | some a => a :: geqBack xs (backC a) (backB (sparseSlice xs) B w a) ws
    | none => 4294967295 :: ws.map (fun _ => 4294967295)

/-- `M` is the largest bound so far.  A bound `w` above it is not more than 32 non-empty slices
further, and 0 is not asked for after the end has been reached. -/
def Steps (xs : List Nat) : Nat → List Nat → Prop
  | _, [] => True
  | M, w :: ws => ((w ≤ M ∨ Close xs M w) ∧ (w = 0 → ∃ x ∈ xs, M ≤ x)) ∧ Steps xs (max M w) ws

/-- `M` is the largest bound so far.  0 is not asked for after the end has been reached. -/
def Zeros (xs : List Nat) : Nat → List Nat → Prop
  | _, [] => True
  | M, w :: ws => (w = 0 → ∃ x ∈ xs, M ≤ x) ∧ Zeros xs (max M w) ws

theorem Steps.zeros {ws : List Nat} : ∀ {M : Nat}, Steps xs M ws → Zeros xs M ws := by
  induction ws with
  | nil => intro M _; trivial
  | cons w ws ih => intro M h; exact ⟨h.1.2, ih h.2⟩

theorem geqEnum_end (ws : List Nat) : ∀ {M : Nat} {e : GeqEnum}, ItOn pad m e.it [] →
    (∀ x ∈ xs, x < M) → Zeros xs M ws →
    GeqEnum.run dbg m e ws = .ok (ws.map (fun _ => 4294967295)) := by
  induction ws with
  | nil => intro M e _ _ _; rfl
  | cons w ws ih =>
    intro M e he hM hst
    have hw : 0 < w := by
      refine Nat.pos_of_ne_zero (fun h0 => ?_)
      obtain ⟨x, hx, hle⟩ := hst.1 h0
      have := hM x hx
      omega
    obtain ⟨e', e1, h1⟩ := GeqEnum.next_geq_end (dbg := dbg) he hw
    unfold GeqEnum.run
    rw [e1, ok_bind]
    simp only
    rw [ih h1 (fun x hx => by have := hM x hx; omega) hst.2]
    rfl

theorem sparse_chunk {c : Chk} (hc : c ∈ chunksOf xs) :
    sparseSlice xs c.id = true ↔ ∃ bs, c.body = .sparse bs := by
  have h := body_slices xs c hc
  constructor
  · intro hs; exact ⟨_, h.1 hs⟩
  · rintro ⟨bs, hbs⟩
    cases hq : sparseSlice xs c.id with
    | true => rfl
    | false => exact absurd hbs (h.2 hq bs)

theorem back_le {C B w : Nat} : w ≤ backBound C B w ∧ C ≤ max C (backBound C B w) := by
  unfold backBound
  constructor
  · split <;> omega
  · omega

theorem geqBack_some {C B w a : Nat} {ws : List Nat}
    (h : xs.find? (fun x => decide (backBound C B w ≤ x)) = some a) :
    geqBack xs C B (w :: ws) = a :: geqBack xs (backC a) (backB (sparseSlice xs) B w a) ws := by
  rw [geqBack, h]

theorem geqBack_none {C B w : Nat} {ws : List Nat}
    (h : xs.find? (fun x => decide (backBound C B w ≤ x)) = none) :
    geqBack xs C B (w :: ws) = 4294967295 :: ws.map (fun _ => 4294967295) := by
  rw [geqBack, h]

theorem geqBack_step (hv : Valid xs) {C B M w : Nat} {e : GeqEnum} {cur : List Chk} {it : It}
    {ws : List Nat}
    (h : BackInv pad m (chunksOf xs) C B e cur) (hMC : M < C + 65536) (hBx : ∃ x ∈ xs, B ≤ x)
    (hw : w < 4294967296) (es : e.it.skip_to_value m (w / 65536) = .ok it)
    (hit : ItOn pad m it (fromId (w / 65536) cur)) (hst : Zeros xs (max M w) ws)
    (ih : ∀ {C B : Nat} {e : GeqEnum} {cur : List Chk}, BackInv pad m (chunksOf xs) C B e cur →
      (e.it = it ∨ it.next m = .ok e.it) → max M w < C + 65536 → (∃ x ∈ xs, B ≤ x) →
      GeqEnum.run dbg m e ws = .ok (geqBack xs C B ws)) :
    GeqEnum.run dbg m e (w :: ws) = .ok (geqBack xs C B (w :: ws)) := by
  have hCB := h.le
  have hsl := h.slice
  rcases GeqEnum.next_geq_back (dbg := dbg) h (fun c hc => sparse_chunk hc) hw es hit with
    ⟨e', a, cur', e1, hg, h1, -⟩ | ⟨e', e1, hg, h1⟩
  · rw [seqElems_chunksOf hv] at hg
    have ha : a ∈ xs := List.mem_of_find?_eq_some hg
    have hle : backBound C B w ≤ a := by simpa using List.find?_some hg
    have hwa := back_le (C := C) (B := B) (w := w)
    have hCa : C ≤ a := by
      unfold backBound at hle
      split at hle <;> omega
    unfold GeqEnum.run
    rw [e1, ok_bind]
    simp only
    rw [ih h1 (GeqEnum.next_geq_it es e1) (by unfold backC; omega) ?_]
    · unfold geq at hg
      rw [geqBack_some hg]
      rfl
    · unfold backB
      split
      · exact ⟨a, ha, by omega⟩
      · obtain ⟨x, hx, hxB⟩ := hBx
        by_cases hc : backC a ≤ B
        · exact ⟨x, hx, by omega⟩
        · exact ⟨a, ha, by unfold backC at hc ⊢; omega⟩
  · rw [seqElems_chunksOf hv] at hg
    unfold geq at hg
    have hall : ∀ x ∈ xs, x < max M w := by
      have hn := List.find?_eq_none.mp hg
      obtain ⟨y, hy, hyB⟩ := hBx
      have hy' := hn y hy
      intro x hx
      have hx' := hn x hx
      simp only [decide_eq_true_eq, Nat.not_le] at hx' hy'
      unfold backBound at hx' hy'
      split at hx' <;> split at hy' <;> omega
    unfold GeqEnum.run
    rw [e1, ok_bind]
    simp only
    rw [geqEnum_end ws h1 hall hst]
    rw [geqBack_none hg]
    rfl

theorem geqBack_run (hv : Valid xs) (vs : List Nat) :
    ∀ {M C B : Nat} {e : GeqEnum} {cur : List Chk}, BackInv pad m (chunksOf xs) C B e cur →
      M < C + 65536 → (∃ x ∈ xs, B ≤ x) → Steps xs M vs → (∀ w ∈ vs, w < 4294967296) →
      GeqEnum.run dbg m e vs = .ok (geqBack xs C B vs) := by
  induction vs with
  | nil => intro M C B e cur _ _ _ _ _; rfl
  | cons w vs ih =>
    intro M C B e cur h hMC hBx hst hb
    obtain ⟨p, hp, -⟩ := h.pre
    have hids : ∀ c ∈ cur, M / 65536 ≤ c.id := by
      intro c hc
      have := h.ids c hc
      have := h.slice
      omega
    obtain ⟨it, es, hit⟩ := It.skip_nojump (lb := w / 65536) h.it (by
      rcases hst.1.1 with hle | hcl
      · intro c hc
        cases hcur : cur with
        | nil => rw [hcur] at hc; cases hc
        | cons d post =>
          have hw := h.it.wf
          rw [hcur] at hw hc
          have h1 := hw.head_lt c (by
            rw [List.getElem?_cons_succ] at hc
            exact List.mem_of_getElem? hc)
          have h2 := hids d (by rw [hcur]; simp)
          omega
      · exact close_nojump hcl hp h.it.wf hids)
    exact geqBack_step hv h hMC hBx (hb w List.mem_cons_self) es hit hst.2.zeros
      (fun h1 _ h2 h3 => ih h1 h2 h3 hst.2 (fun x hx => hb x (List.mem_cons_of_mem _ hx)))

theorem backInv_new (hv : Valid xs) (hs : Stored dbg xs pad m s) :
    ∃ e, GeqEnum.new m s = .ok e ∧ e.it = s.begin ∧
      BackInv pad m (chunksOf xs) 0 0 e (chunksOf xs) := by
  have hr := hs.repr hv
  refine ⟨⟨4294967295, 0, 0, 0, 0, xs.length, s.begin⟩, ?_, rfl, ?_⟩
  · unfold GeqEnum.new SSeq.size
    rw [SSeq.cardinality_spec hr, seqElems_chunksOf hv, ok_bind, pure_ok]
  · refine ⟨⟨[], (List.nil_append _).symm, by simp⟩, by simp, rfl, Nat.le_refl _, by omega,
      chunksOf_ne_nil hv, hr.begin, ?_, fun _ _ _ _ => rfl⟩
    intro c hc hid
    have := (hr.wf.2 c hc).1
    simp only at hid
    omega

/-- C80: what a fresh `next_geq_enumerator` answers to any bounds, also when they go back. -/
theorem C80_history (hv : Valid xs) (hs : Stored dbg xs pad m s) (v : Nat) (vs : List Nat)
    (hst : Steps xs v vs) (hb : ∀ w ∈ v :: vs, w < 4294967296) :
    ∃ e, GeqEnum.new m s = .ok e ∧
      GeqEnum.run dbg' m e (v :: vs) = .ok (geqBack xs 0 0 (v :: vs)) := by
  have hr := hs.repr hv
  obtain ⟨e, h1, h2, h3⟩ := backInv_new hv hs
  obtain ⟨it, es, hit, -⟩ := It.skip_to_value_spec (lb := v / 65536) hr.begin hr.ptrs
  refine ⟨e, h1, ?_⟩
  obtain ⟨x, hx⟩ := List.exists_mem_of_ne_nil xs hv.1
  exact geqBack_step (M := 0) hv h3 (by omega) ⟨x, hx, Nat.zero_le _⟩ (hb v List.mem_cons_self)
    (by rw [h2]; exact es) hit (by rw [Nat.max_eq_right (Nat.zero_le v)]; exact hst.zeros)
    (fun g1 _ g2 g3 => geqBack_run hv vs g1 (by rw [Nat.max_eq_right (Nat.zero_le v)] at g2; exact g2) g3
      hst (fun w hw => hb w (List.mem_cons_of_mem _ hw)))

theorem geqBack_length (vs : List Nat) : ∀ C B, (geqBack xs C B vs).length = vs.length := by
  induction vs with
  | nil => intro C B; rfl
  | cons w ws ih =>
    intro C B
    unfold geqBack
    split <;> simp [ih]

theorem geqBack_sound (vs : List Nat) : ∀ C B, ∀ q ∈ vs.zip (geqBack xs C B vs),
    q.2 = 4294967295 ∨ (q.2 ∈ xs ∧ q.1 ≤ q.2) := by
  induction vs with
  | nil => intro C B q hq; cases hq
  | cons w ws ih =>
    intro C B q hq
    unfold geqBack at hq
    split at hq
    · rename_i a ha
      rw [List.zip_cons_cons] at hq
      rcases List.mem_cons.mp hq with rfl | hq
      · have h1 : backBound C B w ≤ a := by simpa using List.find?_some ha
        exact Or.inr ⟨List.mem_of_find?_eq_some ha, Nat.le_trans back_le.1 h1⟩
      · exact ih _ _ q hq
    · rw [List.zip_cons_cons] at hq
      rcases List.mem_cons.mp hq with rfl | hq
      · exact Or.inl rfl
      · have := (List.of_mem_zip (a := q.1) (b := q.2) hq).2
        exact Or.inl (List.mem_map.mp this).choose_spec.2.symm

/-- C80: whatever the bounds, every answer is an element not below its bound, or `not_found`. -/
theorem C80_sound (hv : Valid xs) (hs : Stored dbg xs pad m s) (v : Nat) (vs : List Nat)
    (hst : Steps xs v vs) (hb : ∀ w ∈ v :: vs, w < 4294967296) :
    ∃ e as, GeqEnum.new m s = .ok e ∧ GeqEnum.run dbg' m e (v :: vs) = .ok as ∧
      as.length = (v :: vs).length ∧
      ∀ q ∈ (v :: vs).zip as, q.2 = 4294967295 ∨ (q.2 ∈ xs ∧ q.1 ≤ q.2) := by
  obtain ⟨e, h1, h2⟩ := C80_history (dbg' := dbg') hv hs v vs hst hb
  exact ⟨e, _, h1, h2, geqBack_length _ _ _, geqBack_sound _ _ _⟩

theorem steps_few (hv : Valid xs) {L : List Nat} (hL : Enumerates L (fun i => ∃ x ∈ xs, x / 65536 = i))
    (hfew : L.length ≤ 32) (vs : List Nat) : ∀ M, (∀ w ∈ vs, w = 0 → ∃ x ∈ xs, M ≤ x ∧
      ∀ w ∈ vs, w ≤ x) → Steps xs M vs := by
  induction vs with
  | nil => intro M _; trivial
  | cons w ws ih =>
    intro M h0
    refine ⟨⟨?_, ?_⟩, ?_⟩
    · by_cases hle : w ≤ M
      · exact Or.inl hle
      · refine Or.inr ⟨by omega, ?_⟩
        rw [hL.unique (slicesOf_enumerates hv)] at hfew
        exact Nat.le_trans (List.length_filter_le _ _) hfew
    · intro hw0
      obtain ⟨x, hx, h1, -⟩ := h0 w List.mem_cons_self hw0
      exact ⟨x, hx, h1⟩
    · refine ih _ (fun w' hw' hw0 => ?_)
      obtain ⟨x, hx, h1, h2⟩ := h0 w' (List.mem_cons_of_mem _ hw') hw0
      exact ⟨x, hx, Nat.max_le.mpr ⟨h1, h2 w List.mem_cons_self⟩,
        fun w'' hw'' => h2 w'' (List.mem_cons_of_mem _ hw'')⟩

/-- C80: on a list with at most 32 non-empty slices the answers are the described ones for all bounds
but 0, in any order. -/
theorem C80_few_slices (hv : Valid xs) (hs : Stored dbg xs pad m s)
    {L : List Nat} (hL : Enumerates L (fun i => ∃ x ∈ xs, x / 65536 = i)) (hfew : L.length ≤ 32)
    (vs : List Nat) (hb : ∀ w ∈ vs, 0 < w ∧ w < 4294967296) :
    ∃ e, GeqEnum.new m s = .ok e ∧ GeqEnum.run dbg' m e vs = .ok (geqBack xs 0 0 vs) := by
  cases vs with
  | nil =>
    obtain ⟨e, h1, -⟩ := backInv_new hv hs
    exact ⟨e, h1, rfl⟩
  | cons v vs =>
    refine C80_history hv hs v vs (steps_few hv hL hfew vs v ?_) (fun w hw => (hb w hw).2)
    intro w hw h0
    have := (hb w (List.mem_cons_of_mem _ hw)).1
    omega

/-- where the second of two bounds, `w`, is raised to after the answer `a` to `v` -/
def raised (xs : List Nat) (v a w : Nat) : Nat :=
  if w ≤ a / 65536 * 65536 then a / 65536 * 65536
  else if a / 65536 * 65536 < v ∧ sparseSlice xs (a / 65536) = true then max w (a / 256 * 256)
  else w

theorem find_eq_iff (hs : xs.Pairwise (· < ·)) (hb : ∀ x ∈ xs, x < 4294967295) {w u : Nat} (h : w ≤ u) :
    (xs.find? (fun x => decide (u ≤ x))).getD 4294967295
      = (xs.find? (fun x => decide (w ≤ x))).getD 4294967295 ↔ ∀ x ∈ xs, ¬ (w ≤ x ∧ x < u) := by
  induction xs with
  | nil => simp
  | cons y ys ih =>
    rw [List.pairwise_cons] at hs
    have hy := hb y List.mem_cons_self
    rw [List.find?_cons, List.find?_cons]
    by_cases h1 : w ≤ y
    · by_cases h2 : u ≤ y
      · simp only [h1, h2, decide_true, true_iff]
        intro x hx
        rcases List.mem_cons.mp hx with rfl | hx
        · omega
        · have := hs.1 x hx; omega
      · simp only [h1, h2, decide_true, decide_false, Option.getD_some]
        constructor
        · intro he
          cases hq : ys.find? (fun x => decide (u ≤ x)) with
          | none => rw [hq] at he; simp at he; omega
          | some z =>
            rw [hq] at he
            have := hs.1 z (List.mem_of_find?_eq_some hq)
            simp at he; omega
        · intro hno
          exact absurd ⟨h1, by omega⟩ (hno y List.mem_cons_self)
    · have h2 : ¬ u ≤ y := by omega
      simp only [h1, h2, decide_false]
      rw [ih hs.2 (fun x hx => hb x (List.mem_cons_of_mem _ hx))]
      constructor
      · intro hno x hx
        rcases List.mem_cons.mp hx with rfl | hx
        · omega
        · exact hno x hx
      · intro hno x hx
        exact hno x (List.mem_cons_of_mem _ hx)

/-- C80: two bounds, the second not above the first.  The second answer is the one to `raised`, and it
is right if and only if there is no element from the bound up to there. -/
theorem C80_two (hv : Valid xs) (hs : Stored dbg xs pad m s) {v w a : Nat}
    (ha : xs.find? (fun x => decide (v ≤ x)) = some a) (hw : w ≤ v) (hb : v < 4294967296) :
    ∃ e b, GeqEnum.new m s = .ok e ∧ GeqEnum.run dbg' m e [v, w] = .ok [a, b] ∧
      s.next_geq dbg' m (raised xs v a w) = .ok b ∧
      (s.next_geq dbg' m w = .ok b ↔ ∀ x ∈ xs, ¬ (w ≤ x ∧ x < raised xs v a w)) := by
  have hax : a ∈ xs := List.mem_of_find?_eq_some ha
  have hva : v ≤ a := by simpa using List.find?_some ha
  have hab := hv.2.2 a hax
  obtain ⟨e, h1, h2⟩ := C80_history (dbg' := dbg') hv hs v [w]
    ⟨⟨Or.inl hw, fun _ => ⟨a, hax, hva⟩⟩, trivial⟩ (by
      intro x hx
      simp at hx
      rcases hx with rfl | rfl <;> omega)
  have hbb : backBound 0 0 v = v := by
    unfold backBound
    split <;> omega
  have hrb : backBound (backC a) (backB (sparseSlice xs) 0 v a) w = raised xs v a w := by
    unfold backBound backB backC raised
    by_cases h3 : w ≤ a / 65536 * 65536
    · rw [if_pos h3, if_pos h3]
    · rw [if_neg h3, if_neg h3]
      split <;> omega
  have hru : raised xs v a w < 4294967296 := by
    unfold raised
    split
    · omega
    · split <;> omega
  have hrw : w ≤ raised xs v a w := by
    unfold raised
    split
    · assumption
    · split <;> omega
  have hlist : geqBack xs 0 0 [v, w]
      = [a, (xs.find? (fun x => decide (raised xs v a w ≤ x))).getD 4294967295] := by
    unfold geqBack
    rw [hbb, ha]
    simp only
    unfold geqBack
    rw [hrb]
    cases xs.find? (fun x => decide (raised xs v a w ≤ x)) with
    | none => rfl
    | some b => simp [geqBack]
  rw [hlist] at h2
  refine ⟨e, _, h1, h2, C06_find hv hs hru, ?_⟩
  rw [C06_find hv hs (show w < 4294967296 by omega),
    ← find_eq_iff hv.2.1 (fun x hx => by have := hv.2.2 x hx; omega) hrw]
  constructor
  · intro h
    injection h with h
    exact h.symm
  · intro h
    rw [h]

/-- C80: going back inside the block of the last answer is always right. -/
theorem C80_same_block (hv : Valid xs) (hs : Stored dbg xs pad m s) {v w a : Nat}
    (ha : xs.find? (fun x => decide (v ≤ x)) = some a) (hw : w ≤ v) (hb : v < 4294967296)
    (hblk : a / 256 * 256 ≤ w) :
    ∃ e b, GeqEnum.new m s = .ok e ∧ GeqEnum.run dbg' m e [v, w] = .ok [a, b] ∧
      s.next_geq dbg' m w = .ok b := by
  obtain ⟨e, b, h1, h2, -, h4⟩ := C80_two (dbg' := dbg') hv hs ha hw hb
  refine ⟨e, b, h1, h2, h4.mpr ?_⟩
  have hr : raised xs v a w = w := by
    unfold raised
    split
    · omega
    · split <;> omega
  rw [hr]
  intro x _
  omega

/-- C80: going back inside a slice written as a bitmap or as a whole is always right. -/
theorem C80_bitmap (hv : Valid xs) (hs : Stored dbg xs pad m s) {v w a : Nat}
    (ha : xs.find? (fun x => decide (v ≤ x)) = some a) (hw : w ≤ v) (hb : v < 4294967296)
    (hsl : sparseSlice xs (a / 65536) = false) (hC : a / 65536 * 65536 ≤ w) :
    ∃ e b, GeqEnum.new m s = .ok e ∧ GeqEnum.run dbg' m e [v, w] = .ok [a, b] ∧
      s.next_geq dbg' m w = .ok b := by
  obtain ⟨e, b, h1, h2, -, h4⟩ := C80_two (dbg' := dbg') hv hs ha hw hb
  refine ⟨e, b, h1, h2, h4.mpr ?_⟩
  have hr : raised xs v a w = w := by
    unfold raised
    rw [hsl]
    simp
    omega
  rw [hr]
  intro x _
  omega

/-- C80: going back over the beginning of the slice of the last answer is right only if no element is
skipped. -/
theorem C80_slice (hv : Valid xs) (hs : Stored dbg xs pad m s) {v w a : Nat}
    (ha : xs.find? (fun x => decide (v ≤ x)) = some a) (hw : w ≤ a / 65536 * 65536) (hwv : w ≤ v)
    (hb : v < 4294967296) :
    ∃ e b, GeqEnum.new m s = .ok e ∧ GeqEnum.run dbg' m e [v, w] = .ok [a, b] ∧
      s.next_geq dbg' m (a / 65536 * 65536) = .ok b ∧
      (s.next_geq dbg' m w = .ok b ↔ ∀ x ∈ xs, w ≤ x → a / 65536 * 65536 ≤ x) := by
  obtain ⟨e, b, h1, h2, h3, h4⟩ := C80_two (dbg' := dbg') hv hs ha hwv hb
  have hr : raised xs v a w = a / 65536 * 65536 := by
    unfold raised
    rw [if_pos hw]
  rw [hr] at h3 h4
  refine ⟨e, b, h1, h2, h3, h4.trans ?_⟩
  constructor
  · intro h x hx hwx
    have := h x hx
    omega
  · intro h x hx hc
    have := h x hx hc.1
    omega

/-! ## Asking for 0 after the end -/

theorem five_valid : Valid [5] := by refine ⟨by decide, by decide, by decide⟩

def fiveMem : Mem := memOf 0 ((build_sequence true [5] []).toOption.map Prod.snd |>.getD []) 31

theorem five_check :
    (do
      let s ← SSeq.ofAddr fiveMem 0
      let e ← GeqEnum.new fiveMem s
      return (GeqEnum.run true fiveMem e [6], GeqEnum.run false fiveMem e [6, 0],
        GeqEnum.run true fiveMem e [6, 0]) : Res _).toOption
      = some (.ok [4294967295], .error .ub, .error .abort) := by
  decide +kernel

/-- C80: the condition on 0 in `Steps` is needed.  An iterator at the end has 0 for the base of its
slice, so the bound 0 makes the enumerator read the header behind the last one: it executes undefined
behaviour, and with assertions it aborts. -/
theorem C80_zero_after_end :
    ∃ xs m s e, Valid xs ∧ Stored true xs 31 m s ∧ GeqEnum.new m s = .ok e ∧
      GeqEnum.run true m e [6] = .ok [4294967295] ∧ GeqEnum.run false m e [6, 0] = .error .ub ∧
      GeqEnum.run true m e [6, 0] = .error .abort ∧ s.next_geq true m 0 = .ok 5 := by
  obtain ⟨st, bytes, hb, hst⟩ := stored_total true five_valid
  have hmem : fiveMem = memOf 0 bytes 31 := by unfold fiveMem; rw [hb]; rfl
  obtain ⟨s, hs1, hs⟩ := hst fiveMem 0 31 (by rw [hmem]; exact loaded_memOf _ _ _)
    (by rw [hmem]; exact readable_memOf _ _ _)
  have hc := five_check
  rw [hs1, ok_bind] at hc
  cases he : GeqEnum.new fiveMem s with
  | error x => rw [he] at hc; cases hc
  | ok e =>
    rw [he, ok_bind] at hc
    have hc' := Option.some.inj hc
    simp only [Prod.mk.injEq] at hc'
    exact ⟨[5], fiveMem, s, e, five_valid, hs, he, hc'.1, hc'.2.1, hc'.2.2, by
      rw [C06_find five_valid hs (by omega)]; rfl⟩

/-! ## Examples -/

theorem small_sparse : sparseSlice [3, 5, 300, 70000] 0 = true := by decide +kernel

theorem small_few : Enumerates [0, 1] (fun i => ∃ x ∈ [3, 5, 300, 70000], x / 65536 = i) :=
  ⟨by simp, fun v => by simp; omega⟩

/-- C80: the two ways of going wrong.  After the answer 300 to 6, the answer to 4 is 300 instead of 5,
in the same slice; after the answer 70000 to 301, the answer to 4 is 70000 instead of 5. -/
theorem C80_wrong : ∃ xs m s e, Valid xs ∧ Stored true xs 31 m s ∧ GeqEnum.new m s = .ok e ∧
    s.next_geq true m 4 = .ok 5 ∧ GeqEnum.run true m e [6, 4] = .ok [300, 300] ∧
    GeqEnum.run true m e [301, 4] = .ok [70000, 70000] := by
  obtain ⟨m, s, h⟩ := stored_exists true small_valid 31
  obtain ⟨e, h1, h2⟩ := C80_few_slices (dbg' := true) small_valid h small_few (by simp) [6, 4] (by simp)
  obtain ⟨e', h3, h4⟩ := C80_few_slices (dbg' := true) small_valid h small_few (by simp) [301, 4] (by simp)
  rw [h1] at h3
  cases h3
  refine ⟨_, m, s, e, small_valid, h, h1, C06_find small_valid h (by omega), ?_, ?_⟩
  · rw [h2]
    have : sparseSlice [3, 5, 300, 70000] 0 = true := small_sparse
    simp [geqBack, backBound, backB, backC, this]
  · rw [h4]
    simp [geqBack, backBound, backB, backC]

/-- a history that goes back and forth, across blocks and slices and past the end -/
example : ∃ m s e, Stored true [3, 5, 300, 70000] 31 m s ∧ GeqEnum.new m s = .ok e ∧
    GeqEnum.run false m e [4, 3, 6, 4, 301, 4, 65537, 1, 80000, 70000]
      = .ok [5, 3, 300, 300, 70000, 70000, 70000, 70000, 4294967295, 4294967295] := by
  obtain ⟨m, s, h⟩ := stored_exists true small_valid 31
  obtain ⟨e, h1, h2⟩ := C80_few_slices (dbg' := false) small_valid h small_few (by simp)
    [4, 3, 6, 4, 301, 4, 65537, 1, 80000, 70000] (by simp)
  refine ⟨m, s, e, h, h1, ?_⟩
  rw [h2]
  have h0 : sparseSlice [3, 5, 300, 70000] 0 = true := small_sparse
  have h1 : sparseSlice [3, 5, 300, 70000] 1 = true := by decide +kernel
  simp [geqBack, backBound, backB, backC, h0, h1]

/-- 0 may be asked for before the end is reached -/
theorem small_steps : Steps [3, 5, 300, 70000] 301 [4, 0, 80000, 1] := by
  have hlen : (slicesOf [3, 5, 300, 70000]).length ≤ 32 :=
    Nat.le_trans (slices_le small_valid) (by decide)
  exact ⟨⟨Or.inl (by omega), by simp⟩, ⟨Or.inl (by omega), fun _ => ⟨70000, by simp, by omega⟩⟩,
    ⟨Or.inr ⟨by omega, Nat.le_trans (List.length_filter_le _ _) hlen⟩, by simp⟩,
    ⟨Or.inl (by omega), by simp⟩, trivial⟩

example : ∃ m s e, Stored true [3, 5, 300, 70000] 31 m s ∧ GeqEnum.new m s = .ok e ∧
    GeqEnum.run false m e [301, 4, 0, 80000, 1]
      = .ok [70000, 70000, 70000, 4294967295, 4294967295] := by
  obtain ⟨m, s, h⟩ := stored_exists true small_valid 31
  obtain ⟨e, h1, h2⟩ := C80_history (dbg' := false) small_valid h 301 [4, 0, 80000, 1] small_steps
    (by simp)
  refine ⟨m, s, e, h, h1, ?_⟩
  rw [h2]
  simp [geqBack, backBound, backB, backC]

example : ∃ m s e as, Stored true [3, 5, 300, 70000] 31 m s ∧ GeqEnum.new m s = .ok e ∧
    GeqEnum.run false m e [301, 4, 0, 80000, 1] = .ok as ∧
    ∀ q ∈ [301, 4, 0, 80000, 1].zip as, q.2 = 4294967295 ∨ (q.2 ∈ [3, 5, 300, 70000] ∧ q.1 ≤ q.2) := by
  obtain ⟨m, s, h⟩ := stored_exists true small_valid 31
  obtain ⟨e, as, h1, h2, -, h3⟩ := C80_sound (dbg' := false) small_valid h 301 [4, 0, 80000, 1]
    small_steps (by simp)
  exact ⟨m, s, e, as, h, h1, h2, h3⟩

/-- the second answer is 300 for every bound from 0 on, though 3 and 5 are there -/
example : ∃ m s e b, Stored true [3, 5, 300, 70000] 31 m s ∧ GeqEnum.new m s = .ok e ∧
    GeqEnum.run false m e [6, 4] = .ok [300, b] ∧ s.next_geq false m 256 = .ok b ∧
    ¬ s.next_geq false m 4 = .ok b := by
  obtain ⟨m, s, h⟩ := stored_exists true small_valid 31
  have hr : raised [3, 5, 300, 70000] 6 300 4 = 256 := by simp [raised, small_sparse]
  obtain ⟨e, b, h1, h2, h3, h4⟩ := C80_two (dbg' := false) (v := 6) (w := 4) (a := 300) small_valid h
    (by simp) (by omega) (by omega)
  rw [hr] at h3 h4
  refine ⟨m, s, e, b, h, h1, h2, h3, fun hh => ?_⟩
  exact h4.mp hh 5 (by simp) (by omega)

/-- back to the beginning of the block of 5 -/
example : ∃ m s e b, Stored true [3, 5, 300, 70000] 31 m s ∧ GeqEnum.new m s = .ok e ∧
    GeqEnum.run false m e [4, 1] = .ok [5, b] ∧ s.next_geq false m 1 = .ok b := by
  obtain ⟨m, s, h⟩ := stored_exists true small_valid 31
  obtain ⟨e, b, h1, h2, h3⟩ := C80_same_block (dbg' := false) (v := 4) (w := 1) (a := 5) small_valid h
    (by simp) (by omega) (by omega) (by omega)
  exact ⟨m, s, e, b, h, h1, h2, h3⟩

/-- back inside a whole slice -/
example : ∃ m s e b, Stored true (List.range (65536 * 1)) 31 m s ∧ GeqEnum.new m s = .ok e ∧
    GeqEnum.run false m e [1000, 10] = .ok [1000, b] ∧ s.next_geq false m 10 = .ok b := by
  have hv : Valid (List.range (65536 * 1)) := full_valid (by omega) (by omega)
  obtain ⟨m, s, h⟩ := stored_exists true hv 31
  obtain ⟨e, b, h1, h2, h3⟩ := C80_bitmap (dbg' := false) (v := 1000) (w := 10) (a := 1000) hv h
    (by
      rw [List.find?_range_eq_some]
      exact ⟨by simp, List.mem_range.mpr (by omega), fun j hj => by simpa using hj⟩)
    (by omega) (by omega)
    (by
      unfold sparseSlice sliceCard
      rw [List.filter_eq_self.mpr (fun x hx => by
        have := List.mem_range.mp hx
        simp only [beq_iff_eq, decide_eq_true_eq]
        omega), List.length_range]
      exact decide_eq_false (fun hh => absurd hh.1 (by omega)))
    (by omega)
  exact ⟨m, s, e, b, h, h1, h2, h3⟩

/-- back over the beginning of the slice of 70000: wrong for 4, right for 302 -/
example : ∃ m s e b, Stored true [3, 5, 300, 70000] 31 m s ∧ GeqEnum.new m s = .ok e ∧
    GeqEnum.run false m e [400, 302] = .ok [70000, b] ∧ s.next_geq false m 302 = .ok b := by
  obtain ⟨m, s, h⟩ := stored_exists true small_valid 31
  obtain ⟨e, b, h1, h2, -, h3⟩ := C80_slice (dbg' := false) (v := 400) (w := 302) (a := 70000) small_valid
    h (by simp) (by omega) (by omega) (by omega)
  exact ⟨m, s, e, b, h, h1, h2, h3.mpr (by simp)⟩

end Sliced
