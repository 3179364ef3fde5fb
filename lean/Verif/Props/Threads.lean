import Verif.Props.Concurrency
import Verif.Proof.Quiet
/-!
# C55: which calls may run at the same time

Whether a call touches the static scratch objects is said in terms of the lists alone, by counting the
elements of slices and blocks (`sliceCard`, `blockCard`, `sparseCost` of C35).
-/
namespace Sliced

variable {σ τ α : Type} {dbg dbg₁ dbg₂ : Bool} {m : Mem} {tab : Nat → List Nat}

/-- Slice `i` is stored as a bitmap. -/
def AsBitmap (xs : List Nat) (i : Nat) : Prop :=
  sliceCard xs i ≠ 0 ∧ sliceCard xs i ≠ 65536 ∧ ¬ (sliceCard xs i < 32768 ∧ sparseCost xs i < 8192)

/-- Slice `i` is stored as blocks. -/
def AsBlocks (xs : List Nat) (i : Nat) : Prop :=
  sliceCard xs i ≠ 0 ∧ sliceCard xs i < 32768 ∧ sparseCost xs i < 8192

/-- A slice is a bitmap in one list and made of blocks in the other one. -/
def MixedSlice (xs ys : List Nat) : Prop :=
  ∃ i, (AsBitmap xs i ∧ AsBlocks ys i) ∨ (AsBlocks xs i ∧ AsBitmap ys i)

/-- The same for a block (31 elements or more are stored as a bitmap) of a slice that is made of blocks
in both lists. -/
def MixedBlock (xs ys : List Nat) : Prop :=
  ∃ i b, b < 256 ∧ AsBlocks xs i ∧ AsBlocks ys i ∧
    ((0 < blockCard xs (256 * i + b) ∧ blockCard xs (256 * i + b) < 31 ∧ 31 ≤ blockCard ys (256 * i + b)) ∨
      (31 ≤ blockCard xs (256 * i + b) ∧ 0 < blockCard ys (256 * i + b) ∧ blockCard ys (256 * i + b) < 31))

/-! ## From the lists to the encoded slices -/

theorem bodyOf_cases {xs : List Nat} {i : Nat} (h : chunkVals xs i ≠ []) :
    (bodyOf (chunkVals xs i) = .full ∧ sliceCard xs i = 65536) ∨
    (bodyOf (chunkVals xs i) = .dense (chunkVals xs i) ∧ AsBitmap xs i) ∨
    (bodyOf (chunkVals xs i) = .sparse (blocksTo (chunkVals xs i) 256) ∧ AsBlocks xs i) := by
  have hl := chunkVals_length xs i
  have hp := List.length_pos_iff.mpr h
  have hc := sparseCost_eq xs i
  unfold bodyOf
  rw [hl, hc]
  unfold AsBitmap AsBlocks
  by_cases h1 : sliceCard xs i < 32768
  · rw [if_pos h1]
    by_cases h2 : 8192 ≤ sparseCost xs i
    · rw [if_pos h2]
      exact Or.inr (Or.inl ⟨rfl, by omega, by omega, by omega⟩)
    · rw [if_neg h2]
      exact Or.inr (Or.inr ⟨rfl, by omega, by omega, by omega⟩)
  · rw [if_neg h1]
    by_cases h2 : sliceCard xs i = 65536
    · rw [if_pos h2]
      exact Or.inl ⟨rfl, h2⟩
    · rw [if_neg h2]
      exact Or.inr (Or.inl ⟨rfl, by omega, h2, by omega⟩)

theorem chunk_of_card {xs : List Nat} (hv : Valid xs) {i : Nat} (h : sliceCard xs i ≠ 0) :
    ⟨i, bodyOf (chunkVals xs i)⟩ ∈ chunksOf xs := by
  have hl := chunkVals_length xs i
  have hne : chunkVals xs i ≠ [] := by
    intro h0
    rw [h0] at hl
    exact h hl.symm
  refine mem_chunksTo.mpr ⟨?_, rfl, hne⟩
  obtain ⟨v, hm⟩ := List.exists_mem_of_ne_nil _ (fun h0 => h (by unfold sliceCard; rw [h0]; rfl) :
    xs.filter (fun x => x / 65536 == i) ≠ [])
  rw [List.mem_filter, beq_iff_eq] at hm
  have := hv.2.2 v hm.1
  show i < 65535
  omega

theorem chunk_body {xs : List Nat} {c : Chk} (h : c ∈ chunksOf xs) :
    c.body = bodyOf (chunkVals xs c.id) ∧ chunkVals xs c.id ≠ [] := (mem_chunksTo.mp h).2

theorem not_both {xs : List Nat} {i : Nat} (h : AsBitmap xs i) (h' : AsBlocks xs i) : False :=
  h.2.2 h'.2

theorem AsBitmap.body {xs : List Nat} {i : Nat} (h : AsBitmap xs i) :
    bodyOf (chunkVals xs i) = .dense (chunkVals xs i) := by
  have hne : chunkVals xs i ≠ [] := by
    intro h0
    have hl := chunkVals_length xs i
    rw [h0] at hl
    exact h.1 hl.symm
  rcases bodyOf_cases hne with ⟨-, h1⟩ | ⟨h1, -⟩ | ⟨-, h1⟩
  · exact absurd h1 h.2.1
  · exact h1
  · exact (not_both h h1).elim

theorem AsBlocks.body {xs : List Nat} {i : Nat} (h : AsBlocks xs i) :
    bodyOf (chunkVals xs i) = .sparse (blocksTo (chunkVals xs i) 256) := by
  have hne : chunkVals xs i ≠ [] := by
    intro h0
    have hl := chunkVals_length xs i
    rw [h0] at hl
    exact h.1 hl.symm
  rcases bodyOf_cases hne with ⟨-, h1⟩ | ⟨-, h1⟩ | ⟨h1, -⟩
  · have := h.2.1; omega
  · exact (not_both h1 h).elim
  · exact h1

theorem quietI_iff {xs ys : List Nat} (hx : Valid xs) (hy : Valid ys) :
    ChunksQuietI (chunksOf xs) (chunksOf ys) ↔ ¬ MixedSlice xs ys := by
  constructor
  · rintro h ⟨i, ⟨h1, h2⟩ | ⟨h1, h2⟩⟩
    · have := h _ (chunk_of_card hx h1.1) _ (chunk_of_card hy h2.1) rfl
      simp only [h1.body, h2.body] at this
      exact this
    · have := h _ (chunk_of_card hx h1.1) _ (chunk_of_card hy h2.1) rfl
      simp only [h1.body, h2.body] at this
      exact this
  · intro h a ha b hb hab
    obtain ⟨e1, n1⟩ := chunk_body ha
    obtain ⟨e2, n2⟩ := chunk_body hb
    rw [e1, e2]
    rw [hab] at n1 ⊢
    rcases bodyOf_cases n1 with ⟨f1, -⟩ | ⟨f1, g1⟩ | ⟨f1, g1⟩ <;>
      rcases bodyOf_cases n2 with ⟨f2, -⟩ | ⟨f2, g2⟩ | ⟨f2, g2⟩ <;> rw [f1, f2] <;> try exact True.intro
    · exact (h ⟨b.id, Or.inl ⟨g1, g2⟩⟩).elim
    · exact (h ⟨b.id, Or.inr ⟨g1, g2⟩⟩).elim

theorem quietBlocks_iff {xs ys : List Nat} {i : Nat} :
    BlocksQuietU (blocksTo (chunkVals xs i) 256) (blocksTo (chunkVals ys i) 256) ↔
      ¬ ∃ b, b < 256 ∧
        ((0 < blockCard xs (256 * i + b) ∧ blockCard xs (256 * i + b) < 31 ∧
            31 ≤ blockCard ys (256 * i + b)) ∨
          (31 ≤ blockCard xs (256 * i + b) ∧ 0 < blockCard ys (256 * i + b) ∧
            blockCard ys (256 * i + b) < 31)) := by
  constructor
  · rintro h ⟨b, hb, hcase⟩
    have l1 := blockVals_chunkVals xs i hb
    have l2 := blockVals_chunkVals ys i hb
    have n1 : blockVals (chunkVals xs i) b ≠ [] := by
      intro h0; rw [h0] at l1; simp only [List.length_nil] at l1; omega
    have n2 : blockVals (chunkVals ys i) b ≠ [] := by
      intro h0; rw [h0] at l2; simp only [List.length_nil] at l2; omega
    have hq := h ⟨b, blockVals (chunkVals xs i) b⟩ (mem_blocksTo.mpr ⟨hb, rfl, n1⟩)
      ⟨b, blockVals (chunkVals ys i) b⟩ (mem_blocksTo.mpr ⟨hb, rfl, n2⟩) rfl
    unfold Blk.QuietU at hq
    simp only [l1, l2] at hq
    omega
  · intro h x hx y hy hxy
    obtain ⟨i1, v1, n1⟩ := mem_blocksTo.mp hx
    obtain ⟨i2, v2, n2⟩ := mem_blocksTo.mp hy
    have l1 := blockVals_chunkVals xs i i1
    have l2 := blockVals_chunkVals ys i i2
    have p1 := List.length_pos_iff.mpr n1
    have p2 := List.length_pos_iff.mpr n2
    unfold Blk.QuietU
    rw [v1, v2, l1, l2]
    rw [← hxy] at l2 p2 ⊢
    have hn : ¬ ((0 < blockCard xs (256 * i + x.id) ∧ blockCard xs (256 * i + x.id) < 31 ∧
            31 ≤ blockCard ys (256 * i + x.id)) ∨
          (31 ≤ blockCard xs (256 * i + x.id) ∧ 0 < blockCard ys (256 * i + x.id) ∧
            blockCard ys (256 * i + x.id) < 31)) := fun hc => h ⟨x.id, i1, hc⟩
    omega

theorem quietU_iff {xs ys : List Nat} (hx : Valid xs) (hy : Valid ys) :
    ChunksQuietU (chunksOf xs) (chunksOf ys) ↔ ¬ (MixedSlice xs ys ∨ MixedBlock xs ys) := by
  constructor
  · rintro h (⟨i, ⟨h1, h2⟩ | ⟨h1, h2⟩⟩ | ⟨i, b, hb, h1, h2, hc⟩)
    · have := h _ (chunk_of_card hx h1.1) _ (chunk_of_card hy h2.1) rfl
      simp only [h1.body, h2.body] at this
      exact this
    · have := h _ (chunk_of_card hx h1.1) _ (chunk_of_card hy h2.1) rfl
      simp only [h1.body, h2.body] at this
      exact this
    · have := h _ (chunk_of_card hx h1.1) _ (chunk_of_card hy h2.1) rfl
      simp only [h1.body, h2.body] at this
      exact quietBlocks_iff.mp this ⟨b, hb, hc⟩
  · intro h a ha b hb hab
    obtain ⟨e1, n1⟩ := chunk_body ha
    obtain ⟨e2, n2⟩ := chunk_body hb
    rw [e1, e2]
    rw [hab] at n1 ⊢
    rcases bodyOf_cases n1 with ⟨f1, -⟩ | ⟨f1, g1⟩ | ⟨f1, g1⟩ <;>
      rcases bodyOf_cases n2 with ⟨f2, -⟩ | ⟨f2, g2⟩ | ⟨f2, g2⟩ <;> rw [f1, f2] <;> try exact True.intro
    · exact (h (Or.inl ⟨b.id, Or.inl ⟨g1, g2⟩⟩)).elim
    · exact (h (Or.inl ⟨b.id, Or.inr ⟨g1, g2⟩⟩)).elim
    · refine quietBlocks_iff.mpr ?_
      rintro ⟨k, hk, hc⟩
      exact h (Or.inr ⟨b.id, k, hk, g1, g2, hc⟩)

/-- C55: exactly when a call of `pairwise_union` does not touch the static scratch objects: no slice and
no block is a bitmap in one of the lists only. -/
theorem C55_union_scratch {xs ys Z out : List Nat} {l r : SSeq} (h : Operands dbg₁ m xs ys l r)
    (hZ : Enumerates Z (fun v => v ∈ xs ∨ v ∈ ys)) (hcap : Z.length + 23 ≤ out.length) :
    (∃ v, pairwise_union_prog dbg m l r out 0 = .ret v) ↔ ¬ (MixedSlice xs ys ∨ MixedBlock xs ys) := by
  obtain ⟨a, b, bx, bY, h1, h2, -⟩ := h.stored
  have q := pairwise_union_quiet (dbg := dbg) (buf := out) (out := 0) (h1.stored.repr h.valid.1)
    (h2.stored.repr h.valid.2)
  rw [← quietU_iff h.valid.1 h.valid.2]
  constructor
  · rintro ⟨v, e⟩
    exact q.2 v e
  · intro hq
    obtain ⟨o, s', e, -⟩ := union_alone_right (dbg := dbg) (out := out)
      (s := UScratch.init) h UScratch.init_ok hZ hcap
    exact ⟨_, ret_of_run (q.1 hq) e⟩

/-- C55: the same for `pairwise_intersection`, where only slices matter. -/
theorem C55_intersection_scratch {xs ys Z out : List Nat} {l r : SSeq} (ht : TabOk tab) (hx : Valid xs)
    (hy : Valid ys) (hl : Stored dbg₁ xs 31 m l) (hr : Stored dbg₂ ys 31 m r)
    (hZ : Enumerates Z (fun v => v ∈ xs ∧ v ∈ ys)) (hcap : Z.length + 23 ≤ out.length) :
    (∃ v, pairwise_intersection_prog dbg tab m l r out 0 = .ret v) ↔ ¬ MixedSlice xs ys := by
  rw [← quietI_iff hx hy]
  constructor
  · rintro ⟨v, e⟩
    exact pairwise_intersection_loud (hl.repr hx) (hr.repr hy) e
  · intro hq
    obtain ⟨x', o, e, -⟩ := C10_intersection (dbg := dbg) ht hx hy hl hr hZ (List.replicate 1024 0)
      List.length_replicate out 0 (by omega)
    have e' : (pairwise_intersection_prog dbg tab m l r out 0).run (List.replicate 1024 0)
        = .ok ((Z.length, o), x') := by
      rw [C34_intersection_alone, e]; rfl
    exact ⟨_, ret_of_run (pairwise_intersection_quiet (hl.repr hx) (hr.repr hy) hq) e'⟩

/-! ## Any number of calls at the same time -/

theorem getElem?_set_cases {β : Type _} {l : List β} {i j : Nat} {p q : β} (h : (l.set i p)[j]? = some q) :
    (j = i ∧ q = p) ∨ (j ≠ i ∧ l[j]? = some q) := by
  rw [List.getElem?_set] at h
  by_cases hij : i = j
  · rw [if_pos hij] at h
    split at h
    · exact Or.inl ⟨hij.symm, (Option.some.inj h).symm⟩
    · cases h
  · rw [if_neg hij] at h
    exact Or.inr ⟨fun h' => hij h'.symm, h⟩

/-- If all calls but number `k` have nothing to do with the shared state, no schedule makes a call fail
and every call that finishes has the result it would have alone. -/
theorem schedule_one {P : Nat → α → Prop} (k : Nat) (sched : List Nat) {ps : List (Prog σ α)} {s : σ}
    (hq : ∀ (i : Nat) p, ps[i]? = some p → i ≠ k → ∃ a, p = .ret a ∧ P i a)
    (hk : ∀ p, ps[k]? = some p → ∃ a s', p.run s = .ok (a, s') ∧ P k a) :
    ∃ ps' s', schedule sched ps s = .ok (ps', s') ∧ ps'.length = ps.length ∧
      (∀ (i : Nat) p, ps'[i]? = some p → i ≠ k → ∃ a, p = .ret a ∧ P i a) ∧
      (∀ p, ps'[k]? = some p → ∃ a s'', p.run s' = .ok (a, s'') ∧ P k a) := by
  induction sched generalizing ps s with
  | nil => exact ⟨ps, s, rfl, rfl, hq, hk⟩
  | cons i t ih =>
    unfold schedule
    cases hi : ps[i]? with
    | none => exact ih hq hk
    | some p =>
      simp only
      by_cases hik : i = k
      · subst hik
        obtain ⟨a, s', e, hP⟩ := hk p hi
        obtain ⟨⟨p', s1⟩, e1⟩ := Prog.step_ok e
        rw [e1]
        simp only
        obtain ⟨ps', s2, e2, hl, h1, h2⟩ := ih (ps := ps.set i p') (s := s1)
          (fun j q hj hne => by
            rcases getElem?_set_cases hj with ⟨h, -⟩ | ⟨-, h⟩
            · exact absurd h hne
            · exact hq j q h hne)
          (fun q hj => by
            rcases getElem?_set_cases hj with ⟨-, rfl⟩ | ⟨h, -⟩
            · exact ⟨a, s', by rw [Prog.step_run e1, e], hP⟩
            · exact absurd rfl h)
        exact ⟨ps', s2, e2, by rw [hl, List.length_set], h1, h2⟩
      · obtain ⟨a, rfl, hP⟩ := hq i p hi hik
        simp only [Prog.step]
        have hself : ps.set i (.ret a) = ps := by
          apply List.ext_getElem?
          intro j
          rw [List.getElem?_set]
          by_cases hij : i = j
          · subst hij
            rw [if_pos rfl, if_pos (List.getElem?_eq_some_iff.mp hi).1, hi]
          · rw [if_neg hij]
        rw [hself]
        exact ih hq hk

/-- ... and after enough turns call number `k` has finished. -/
theorem schedule_one_ends {k : Nat} {p : Prog σ α} {s s' : σ} {a : α} (hr : p.run s = .ok (a, s')) :
    ∃ n, ∀ (sched : List Nat) (ps ps' : List (Prog σ α)) (s1 : σ), n ≤ sched.count k →
      ps[k]? = some p → (∀ (i : Nat) q, ps[i]? = some q → i ≠ k → ∃ a, q = .ret a) →
      schedule sched ps s = .ok (ps', s1) → ps'[k]? = some (.ret a) := by
  have stay : ∀ {ps : List (Prog σ α)} {i : Nat} {a : α}, ps[i]? = some (.ret a) →
      ps.set i (.ret a) = ps := by
    intro ps i a hi
    apply List.ext_getElem?
    intro j
    rw [List.getElem?_set]
    by_cases hij : i = j
    · subst hij
      rw [if_pos rfl, if_pos (List.getElem?_eq_some_iff.mp hi).1, hi]
    · rw [if_neg hij]
  induction p generalizing s with
  | ret b =>
    cases hr
    refine ⟨0, fun sched => ?_⟩
    induction sched with
    | nil => intro ps ps' s1 _ hk _ h; cases h; exact hk
    | cons i t ih =>
      intro ps ps' s1 _ hk hq h
      unfold schedule at h
      cases hi : ps[i]? with
      | none => rw [hi] at h; exact ih ps ps' s1 (Nat.zero_le _) hk hq h
      | some q =>
        rw [hi] at h
        simp only at h
        have : ∃ c, q = .ret c := by
          by_cases hik : i = k
          · subst hik
            rw [hk] at hi
            exact ⟨_, (Option.some.inj hi).symm⟩
          · exact hq i q hi hik
        obtain ⟨c, rfl⟩ := this
        simp only [Prog.step, stay hi] at h
        exact ih ps ps' s1 (Nat.zero_le _) hk hq h
  | fail e => cases hr
  | act β f g ih =>
    have hr : (f s >>= fun p => (g p.1).run p.2) = .ok (a, s') := hr
    cases e : f s with
    | error err => rw [e] at hr; cases hr
    | ok w =>
      rw [e, ok_bind] at hr
      obtain ⟨n, hn⟩ := ih w.1 hr
      refine ⟨n + 1, fun sched => ?_⟩
      induction sched with
      | nil => intro ps ps' s1 hc; simp at hc
      | cons i t iht =>
        intro ps ps' s1 hc hk hq h
        unfold schedule at h
        by_cases hik : i = k
        · subst hik
          rw [hk] at h
          simp only [Prog.step, e] at h
          rw [List.count_cons_self] at hc
          refine hn t _ ps' s1 (by omega) ?_ ?_ h
          · rw [List.getElem?_set_self (List.getElem?_eq_some_iff.mp hk).1]
          · intro j q hj hne
            rcases getElem?_set_cases hj with ⟨h', -⟩ | ⟨-, h'⟩
            · exact absurd h' hne
            · exact hq j q h' hne
        · rw [List.count_cons_of_ne hik] at hc
          cases hi : ps[i]? with
          | none => rw [hi] at h; exact iht ps ps' s1 hc hk hq h
          | some q =>
            rw [hi] at h
            obtain ⟨c, rfl⟩ := hq i q hi hik
            simp only [Prog.step, stay hi] at h
            exact iht ps ps' s1 hc hk hq h

/-- Both together, for calls given by what they are to return. -/
theorem schedule_right {κ : Type} (calls : List κ) (prog : κ → Prog σ α) (Right : κ → α → Prop) (k : Nat)
    (s : σ) (hq : ∀ (i : Nat) c, calls[i]? = some c → i ≠ k → ∃ a, prog c = .ret a)
    (hr : ∀ c ∈ calls, ∃ a s', (prog c).run s = .ok (a, s') ∧ Right c a) :
    ∃ n, ∀ sched : List Nat, ∃ ps' s', schedule sched (calls.map prog) s = .ok (ps', s') ∧
      ps'.length = calls.length ∧ ∀ (i : Nat) c, calls[i]? = some c → ∃ p, ps'[i]? = some p ∧
        (∀ v, p = .ret v → Right c v) ∧ ((i = k → n ≤ sched.count k) → ∃ v, p = .ret v) := by
  let P : Nat → α → Prop := fun i v => ∀ c, calls[i]? = some c → Right c v
  have hq' : ∀ (i : Nat) p, (calls.map prog)[i]? = some p → i ≠ k → ∃ a, p = .ret a ∧ P i a := by
    intro i p hp hne
    rw [List.getElem?_map, Option.map_eq_some_iff] at hp
    obtain ⟨c, hc, rfl⟩ := hp
    obtain ⟨v, e⟩ := hq i c hc hne
    refine ⟨v, e, fun c' hc' => ?_⟩
    rw [hc] at hc'
    cases hc'
    obtain ⟨a, s', e', w⟩ := hr c (List.mem_of_getElem? hc)
    rw [e] at e'
    cases e'
    exact w
  have hk' : ∀ p, (calls.map prog)[k]? = some p → ∃ a s', p.run s = .ok (a, s') ∧ P k a := by
    intro p hp
    rw [List.getElem?_map, Option.map_eq_some_iff] at hp
    obtain ⟨c, hc, rfl⟩ := hp
    obtain ⟨a, s', e', w⟩ := hr c (List.mem_of_getElem? hc)
    refine ⟨_, _, e', fun c' hc' => ?_⟩
    rw [hc] at hc'
    cases hc'
    exact w
  obtain ⟨n, hn⟩ : ∃ n, ∀ (sched : List Nat) ps' s1, n ≤ sched.count k →
      schedule sched (calls.map prog) s = .ok (ps', s1) →
      k < calls.length → ∃ a, ps'[k]? = some (.ret a) := by
    by_cases hlt : k < calls.length
    · obtain ⟨p, hp⟩ : ∃ p, (calls.map prog)[k]? = some p :=
        ⟨_, List.getElem?_eq_getElem (by rw [List.length_map]; exact hlt)⟩
      obtain ⟨a, s', e, -⟩ := hk' p hp
      obtain ⟨n, hn⟩ := schedule_one_ends (k := k) e
      exact ⟨n, fun sched ps' s1 hc h _ => ⟨a, hn sched _ ps' s1 hc hp
        (fun i q hi hne => (hq' i q hi hne).imp (fun _ h => h.1)) h⟩⟩
    · exact ⟨0, fun _ _ _ _ _ h => absurd h hlt⟩
  refine ⟨n, fun sched => ?_⟩
  obtain ⟨ps', s', e, hl, h1, h2⟩ := schedule_one k sched hq' hk'
  refine ⟨ps', s', e, by rw [hl, List.length_map], fun i c hc => ?_⟩
  have hlt := (List.getElem?_eq_some_iff.mp hc).1
  obtain ⟨p, hp⟩ : ∃ p, ps'[i]? = some p :=
    ⟨_, List.getElem?_eq_getElem (by rw [hl, List.length_map]; exact hlt)⟩
  refine ⟨p, hp, ?_, ?_⟩
  · rintro v rfl
    by_cases hik : i = k
    · subst hik
      obtain ⟨a, s'', er, hP⟩ := h2 _ hp
      cases er
      exact hP c hc
    · obtain ⟨a, ea, hP⟩ := h1 i _ hp hik
      cases ea
      exact hP c hc
  · intro hcount
    by_cases hik : i = k
    · obtain ⟨a, ha⟩ := hn sched ps' s' (hcount hik) e (hik ▸ hlt)
      rw [← hik, hp] at ha
      exact ⟨a, Option.some.inj ha⟩
    · exact (h1 i p hp hik).imp (fun _ h => h.1)

/-- A call of `pairwise_union`: its operands, the lists they stand for, their union, the output buffer. -/
structure UnionCall (dbg : Bool) (m : Mem) where
  l : SSeq
  r : SSeq
  xs : List Nat
  ys : List Nat
  Z : List Nat
  out : List Nat
  operands : Operands dbg m xs ys l r
  union : Enumerates Z (fun v => v ∈ xs ∨ v ∈ ys)
  room : Z.length + 23 ≤ out.length

def UnionCall.prog (dbg' : Bool) (c : UnionCall dbg m) : Prog UScratch (Nat × List Nat) :=
  pairwise_union_prog dbg' m c.l c.r c.out 0

/-- the call returned the right number and wrote the union -/
def UnionCall.Right (c : UnionCall dbg m) (v : Nat × List Nat) : Prop :=
  v.1 = c.Z.length ∧ Wrote c.out 0 c.Z 23 v.2

/-- the call does not use the scratch objects -/
def UnionCall.Quiet (c : UnionCall dbg m) : Prop := ¬ (MixedSlice c.xs c.ys ∨ MixedBlock c.xs c.ys)

/-- C55: any number of unions at the same time.  If at most one of them (number `k`) uses the scratch
objects, then whatever the schedule none of them fails, the others are right at once, and number `k` is
right when it has finished, which it has after enough turns. -/
theorem C55_unions (calls : List (UnionCall dbg₁ m)) (k : Nat)
    (hq : ∀ (i : Nat) c, calls[i]? = some c → i ≠ k → c.Quiet) (s : UScratch) (hs : s.Ok) :
    ∃ n, ∀ sched : List Nat, ∃ ps' s',
      schedule sched (calls.map (UnionCall.prog dbg)) s = .ok (ps', s') ∧
      ps'.length = calls.length ∧ ∀ (i : Nat) c, calls[i]? = some c → ∃ p, ps'[i]? = some p ∧
        (∀ v, p = .ret v → c.Right v) ∧ ((i = k → n ≤ sched.count k) → ∃ v, p = .ret v) := by
  refine schedule_right calls _ UnionCall.Right k s (fun i c hc hne => ?_) (fun c _ => ?_)
  · exact (C55_union_scratch (dbg := dbg) c.operands c.union c.room).mpr (hq i c hc hne)
  · obtain ⟨o, s', e', -, w⟩ := union_alone_right (dbg := dbg) (out := c.out) c.operands hs c.union c.room
    exact ⟨_, _, e', rfl, w⟩

/-- A call of `pairwise_intersection`. -/
structure InterCall (dbg : Bool) (m : Mem) where
  l : SSeq
  r : SSeq
  xs : List Nat
  ys : List Nat
  Z : List Nat
  out : List Nat
  valid : Valid xs ∧ Valid ys
  stored : Stored dbg xs 31 m l ∧ Stored dbg ys 31 m r
  inter : Enumerates Z (fun v => v ∈ xs ∧ v ∈ ys)
  room : Z.length + 23 ≤ out.length

def InterCall.prog (dbg' : Bool) (tab : Nat → List Nat) (c : InterCall dbg m) :
    Prog (List Nat) (Nat × List Nat) :=
  pairwise_intersection_prog dbg' tab m c.l c.r c.out 0

/-- the call returned the right number and wrote the intersection -/
def InterCall.Right (c : InterCall dbg m) (v : Nat × List Nat) : Prop :=
  v.1 = c.Z.length ∧ Wrote c.out 0 c.Z 23 v.2

/-- the call does not use the scratch object -/
def InterCall.Quiet (c : InterCall dbg m) : Prop := ¬ MixedSlice c.xs c.ys

/-- C55: the same for intersections. -/
theorem C55_intersections (ht : TabOk tab) (calls : List (InterCall dbg₁ m)) (k : Nat)
    (hq : ∀ (i : Nat) c, calls[i]? = some c → i ≠ k → c.Quiet) (x : List Nat) (hx : x.length = 1024) :
    ∃ n, ∀ sched : List Nat, ∃ ps' x',
      schedule sched (calls.map (InterCall.prog dbg tab)) x = .ok (ps', x') ∧
      ps'.length = calls.length ∧ ∀ (i : Nat) c, calls[i]? = some c → ∃ p, ps'[i]? = some p ∧
        (∀ v, p = .ret v → c.Right v) ∧ ((i = k → n ≤ sched.count k) → ∃ v, p = .ret v) := by
  refine schedule_right calls _ InterCall.Right k x (fun i c hc hne => ?_) (fun c _ => ?_)
  · exact (C55_intersection_scratch (dbg := dbg) ht c.valid.1 c.valid.2 c.stored.1 c.stored.2 c.inter
      c.room).mpr (hq i c hc hne)
  · obtain ⟨x', o, e', -, w⟩ := C10_intersection (dbg := dbg) ht c.valid.1 c.valid.2 c.stored.1 c.stored.2
      c.inter x hx c.out 0 (by have := c.room; omega)
    refine ⟨(c.Z.length, o), x', ?_, rfl, w⟩
    unfold InterCall.prog
    rw [C34_intersection_alone, e']; rfl

/-! ## Unions and intersections mixed -/

/-- Calls on two different shared objects: the schedule splits into one for each object. -/
theorem schedule_separate (sched : List Nat) {us : List (Prog σ α)} {is : List (Prog τ α)} {s : σ} {u : τ}
    {us' : List (Prog σ α)} {is' : List (Prog τ α)} {s' : σ} {u' : τ}
    (h1 : schedule (sched.filter (fun i => decide (i < us.length))) us s = .ok (us', s'))
    (h2 : schedule ((sched.filter (fun i => decide (us.length ≤ i))).map (· - us.length)) is u
      = .ok (is', u')) :
    schedule sched (us.map Prog.onFst ++ is.map Prog.onSnd) (s, u)
      = .ok (us'.map Prog.onFst ++ is'.map Prog.onSnd, (s', u')) := by
  induction sched generalizing us is s u with
  | nil => cases h1; cases h2; rfl
  | cons i t ih =>
    unfold schedule
    by_cases hi : i < us.length
    · rw [List.filter_cons_of_pos (by simpa using hi)] at h1
      rw [List.filter_cons_of_neg (by simpa using hi)] at h2
      unfold schedule at h1
      have hp : us[i]? = some us[i] := List.getElem?_eq_getElem hi
      rw [hp] at h1
      rw [List.getElem?_append_left (by rw [List.length_map]; exact hi), List.getElem?_map, hp]
      simp only [Option.map_some] at h1 ⊢
      rw [onFst_step]
      cases e : us[i].step s with
      | error err => rw [e] at h1; cases h1
      | ok q =>
        rw [e] at h1
        simp only at h1 ⊢
        rw [List.set_append_left _ _ (by rw [List.length_map]; exact hi), ← List.map_set]
        exact ih (by rw [List.length_set]; exact h1) (by rw [List.length_set]; exact h2)
    · have hi' : us.length ≤ i := Nat.le_of_not_lt hi
      rw [List.filter_cons_of_neg (by simpa using hi')] at h1
      rw [List.filter_cons_of_pos (by simpa using hi'), List.map_cons] at h2
      unfold schedule at h2
      rw [List.getElem?_append_right (by rw [List.length_map]; exact hi'), List.length_map,
        List.getElem?_map]
      cases hp : is[i - us.length]? with
      | none =>
        rw [hp] at h2
        exact ih h1 h2
      | some p =>
        rw [hp] at h2
        simp only [Option.map_some] at h2 ⊢
        rw [onSnd_step]
        cases e : p.step u with
        | error err => rw [e] at h2; cases h2
        | ok q =>
          rw [e] at h2
          simp only at h2 ⊢
          rw [List.set_append_right _ _ (by rw [List.length_map]; exact hi'), List.length_map,
            ← List.map_set]
          exact ih h1 h2

/-- Calls `ps` in progress on the shared state `s`, call number `i` being right if its result satisfies
`R[i]`: whatever the schedule, none fails, each that has finished is right, and each that has had enough
turns has finished. -/
def AllRight (ps : List (Prog σ α)) (R : List (α → Prop)) (s : σ) : Prop :=
  ps.length = R.length ∧ ∃ n, ∀ sched : List Nat, ∃ ps' s', schedule sched ps s = .ok (ps', s') ∧
    ps'.length = ps.length ∧ ∀ (i : Nat) p r, ps'[i]? = some p → R[i]? = some r →
      (∀ v, p = .ret v → r v) ∧ (n ≤ sched.count i → ∃ v, p = .ret v)

theorem count_filter_lt {sched : List Nat} {i k : Nat} (h : i < k) :
    (sched.filter (fun j => decide (j < k))).count i = sched.count i :=
  List.count_filter (by simpa using h)

theorem count_filter_sub {sched : List Nat} {i k : Nat} :
    ((sched.filter (fun j => decide (k ≤ j))).map (· - k)).count i = sched.count (k + i) := by
  induction sched with
  | nil => rfl
  | cons j t ih =>
    rw [List.count_cons]
    by_cases h : k ≤ j
    · rw [List.filter_cons_of_pos (by simpa using h), List.map_cons, List.count_cons, ih]
      by_cases h' : j - k = i
      · rw [if_pos (by simpa using h'), if_pos (by simp; omega)]
      · rw [if_neg (by simpa using h'), if_neg (by simp; omega)]
    · rw [List.filter_cons_of_neg (by simpa using h), ih, if_neg (by simp; omega)]; rfl

theorem AllRight.separate {ps : List (Prog σ α)} {qs : List (Prog τ α)} {R R' : List (α → Prop)} {s : σ}
    {u : τ} (h : AllRight ps R s) (h' : AllRight qs R' u) :
    AllRight (ps.map Prog.onFst ++ qs.map Prog.onSnd) (R ++ R') (s, u) := by
  obtain ⟨hl, n, h⟩ := h
  obtain ⟨hl', n', h'⟩ := h'
  refine ⟨by rw [List.length_append, List.length_append, List.length_map, List.length_map, hl, hl'],
    max n n', fun sched => ?_⟩
  obtain ⟨ps', s', e, l, r⟩ := h (sched.filter (fun i => decide (i < ps.length)))
  obtain ⟨qs', u', e', l', r'⟩ := h' ((sched.filter (fun i => decide (ps.length ≤ i))).map (· - ps.length))
  refine ⟨_, _, schedule_separate sched e e', by simp only [List.length_append, List.length_map, l, l'], ?_⟩
  intro i p r0 hp hr
  by_cases hi : i < ps.length
  · rw [List.getElem?_append_left (by rw [List.length_map, l]; exact hi), List.getElem?_map,
      Option.map_eq_some_iff] at hp
    rw [List.getElem?_append_left (by rw [← hl]; exact hi)] at hr
    obtain ⟨q, hq, rfl⟩ := hp
    obtain ⟨r1, r2⟩ := r i q r0 hq hr
    refine ⟨fun v hv => r1 v (onFst_ret hv), fun hn => ?_⟩
    obtain ⟨v, rfl⟩ := r2 (by rw [count_filter_lt hi]; omega)
    exact ⟨v, rfl⟩
  · rw [List.getElem?_append_right (by rw [List.length_map, l]; omega), List.length_map, l,
      List.getElem?_map, Option.map_eq_some_iff] at hp
    rw [List.getElem?_append_right (by rw [← hl]; omega), ← hl] at hr
    obtain ⟨q, hq, rfl⟩ := hp
    obtain ⟨r1, r2⟩ := r' (i - ps.length) q r0 hq hr
    refine ⟨fun v hv => r1 v (onSnd_ret hv), fun hn => ?_⟩
    obtain ⟨v, rfl⟩ := r2 (by rw [count_filter_sub, Nat.add_sub_cancel' (by omega)]; omega)
    exact ⟨v, rfl⟩

theorem schedule_allRight {κ : Type} (calls : List κ) (prog : κ → Prog σ α) (Right : κ → α → Prop) (k : Nat)
    (s : σ) (hq : ∀ (i : Nat) c, calls[i]? = some c → i ≠ k → ∃ a, prog c = .ret a)
    (hr : ∀ c ∈ calls, ∃ a s', (prog c).run s = .ok (a, s') ∧ Right c a) :
    AllRight (calls.map prog) (calls.map Right) s := by
  obtain ⟨n, h⟩ := schedule_right calls prog Right k s hq hr
  refine ⟨by rw [List.length_map, List.length_map], n, fun sched => ?_⟩
  obtain ⟨ps', s', e, l, r⟩ := h sched
  refine ⟨ps', s', e, by rw [l, List.length_map], fun i p r0 hp hr0 => ?_⟩
  rw [List.getElem?_map, Option.map_eq_some_iff] at hr0
  obtain ⟨c, hc, rfl⟩ := hr0
  obtain ⟨p', hp', r1, r2⟩ := r i c hc
  rw [hp] at hp'
  cases hp'
  refine ⟨r1, fun hn => r2 (fun hik => by rw [← hik]; exact hn)⟩

theorem C55_unions_allRight (us : List (UnionCall dbg₁ m)) (k : Nat)
    (hq : ∀ (i : Nat) c, us[i]? = some c → i ≠ k → c.Quiet) (s : UScratch) (hs : s.Ok) :
    AllRight (us.map (UnionCall.prog dbg)) (us.map UnionCall.Right) s := by
  refine schedule_allRight us _ UnionCall.Right k s (fun i c hc hne => ?_) (fun c _ => ?_)
  · exact (C55_union_scratch (dbg := dbg) c.operands c.union c.room).mpr (hq i c hc hne)
  · obtain ⟨o, s', e', -, w⟩ := union_alone_right (dbg := dbg) (out := c.out) c.operands hs c.union c.room
    exact ⟨_, _, e', rfl, w⟩

theorem C55_intersections_allRight (ht : TabOk tab) (is : List (InterCall dbg₁ m)) (k : Nat)
    (hq : ∀ (i : Nat) c, is[i]? = some c → i ≠ k → c.Quiet) (x : List Nat) (hx : x.length = 1024) :
    AllRight (is.map (InterCall.prog dbg tab)) (is.map InterCall.Right) x := by
  refine schedule_allRight is _ InterCall.Right k x (fun i c hc hne => ?_) (fun c _ => ?_)
  · exact (C55_intersection_scratch (dbg := dbg) ht c.valid.1 c.valid.2 c.stored.1 c.stored.2 c.inter
      c.room).mpr (hq i c hc hne)
  · obtain ⟨x', o, e', -, w⟩ := C10_intersection (dbg := dbg) ht c.valid.1 c.valid.2 c.stored.1 c.stored.2
      c.inter x hx c.out 0 (by have := c.room; omega)
    refine ⟨(c.Z.length, o), x', ?_, rfl, w⟩
    unfold InterCall.prog
    rw [C34_intersection_alone, e']; rfl

/-- C55: unions and intersections at the same time: one union (number `k`) and one intersection (number
`k'`) may use the scratch objects. -/
theorem C55_mixed (ht : TabOk tab) (us : List (UnionCall dbg₁ m)) (is : List (InterCall dbg₂ m))
    (k k' : Nat) (hu : ∀ (i : Nat) c, us[i]? = some c → i ≠ k → c.Quiet)
    (hi : ∀ (i : Nat) c, is[i]? = some c → i ≠ k' → c.Quiet)
    (s : UScratch) (hs : s.Ok) (x : List Nat) (hx : x.length = 1024) :
    AllRight ((us.map (UnionCall.prog dbg)).map Prog.onFst
        ++ (is.map (InterCall.prog dbg tab)).map Prog.onSnd)
      (us.map UnionCall.Right ++ is.map InterCall.Right) (s, x) :=
  (C55_unions_allRight us k hu s hs).separate (C55_intersections_allRight ht is k' hi x hx)

/-! ## One call after the other -/

/-- C55: any number of unions one after the other, in any order: a list of calls, each one given as many
turns as it needs before the next one starts. -/
theorem C55_unions_in_turn (calls : List (UnionCall dbg₁ m)) (s : UScratch) (hs : s.Ok) :
    ∃ (turns : List Nat) (vs : List (Nat × List Nat)) (s' : UScratch), turns.length = calls.length ∧
      schedule ((turns.mapIdx (fun i n => List.replicate n i)).flatten) (calls.map (UnionCall.prog dbg)) s
        = .ok (vs.map .ret, s') ∧ vs.length = calls.length ∧
      ∀ (i : Nat) c v, calls[i]? = some c → vs[i]? = some v → c.Right v := by
  have one : ∀ (p : Prog UScratch (Nat × List Nat)) (i : Nat) (ps : List (Prog UScratch (Nat × List Nat)))
      (s s' : UScratch) a t, ps[i]? = some p → p.run s = .ok (a, s') →
      ∃ n, schedule (List.replicate n i ++ t) ps s = schedule t (ps.set i (.ret a)) s' := by
    intro p i
    induction p with
    | ret b =>
      intro ps s s' a t hi hr
      cases hr
      refine ⟨0, ?_⟩
      have : ps.set i (.ret b) = ps := by
        apply List.ext_getElem?
        intro j
        rw [List.getElem?_set]
        by_cases hij : i = j
        · subst hij
          rw [if_pos rfl, if_pos (List.getElem?_eq_some_iff.mp hi).1, hi]
        · rw [if_neg hij]
      rw [this]
      rfl
    | fail e => intro ps s s' a t hi hr; cases hr
    | act β f g ih =>
      intro ps s s' a t hi hr
      have hr : (f s >>= fun p => (g p.1).run p.2) = .ok (a, s') := hr
      cases e : f s with
      | error err => rw [e] at hr; cases hr
      | ok w =>
        rw [e, ok_bind] at hr
        have hlt := (List.getElem?_eq_some_iff.mp hi).1
        obtain ⟨n, hn⟩ := ih w.1 (ps.set i (g w.1)) w.2 s' a t (List.getElem?_set_self hlt) hr
        refine ⟨n + 1, ?_⟩
        rw [List.replicate_succ, List.cons_append]
        rw [schedule, hi]
        simp only [Prog.step, e]
        rw [hn, List.set_set]
  suffices H : ∀ (pre : List (UnionCall dbg₁ m)) (ws : List (Nat × List Nat)) (calls : List (UnionCall dbg₁ m))
      (s : UScratch), s.Ok → ws.length = pre.length →
      ∃ (turns : List Nat) (vs : List (Nat × List Nat)) (s' : UScratch), turns.length = calls.length ∧
        schedule ((turns.mapIdx (fun i n => List.replicate n (pre.length + i))).flatten)
          (ws.map .ret ++ calls.map (UnionCall.prog dbg)) s = .ok (ws.map .ret ++ vs.map .ret, s') ∧
        vs.length = calls.length ∧
        ∀ (i : Nat) c v, calls[i]? = some c → vs[i]? = some v → c.Right v by
    obtain ⟨turns, vs, s', h1, h2, h3, h4⟩ := H [] [] calls s hs rfl
    refine ⟨turns, vs, s', h1, ?_, h3, h4⟩
    simpa only [List.map_nil, List.nil_append, List.length_nil, Nat.zero_add] using h2
  intro pre ws calls
  induction calls generalizing pre ws with
  | nil => intro s _ _; exact ⟨[], [], s, rfl, rfl, rfl, fun i c v hc => by cases hc⟩
  | cons c calls ih =>
    intro s hs hw
    obtain ⟨o, s1, e, hs1, w⟩ := union_alone_right (dbg := dbg) (out := c.out) c.operands hs c.union c.room
    obtain ⟨turns, vs, s', h1, h2, h3, h4⟩ := ih (pre ++ [c]) (ws ++ [(c.Z.length, o)]) s1 hs1
      (by rw [List.length_append, List.length_append, hw]; rfl)
    obtain ⟨n, hn⟩ := one (c.prog dbg) pre.length
      (ws.map .ret ++ (c :: calls).map (UnionCall.prog dbg)) s s1 (c.Z.length, o)
      ((turns.mapIdx (fun i n => List.replicate n ((pre ++ [c]).length + i))).flatten)
      (by
        rw [List.getElem?_append_right (by rw [List.length_map]; omega), List.length_map, hw,
          Nat.sub_self]
        rfl) e
    refine ⟨n :: turns, (c.Z.length, o) :: vs, s', by rw [List.length_cons, h1]; rfl, ?_,
      by rw [List.length_cons, h3]; rfl, ?_⟩
    · rw [List.mapIdx_cons, List.flatten_cons, Nat.add_zero]
      have hidx : (turns.mapIdx fun i n => List.replicate n (pre.length + (i + 1)))
          = turns.mapIdx (fun i n => List.replicate n ((pre ++ [c]).length + i)) := by
        congr 1
        funext i n
        rw [List.length_append, List.length_singleton, Nat.add_assoc, Nat.add_comm 1 i]
      rw [hidx, hn, List.set_append_right _ _ (by rw [List.length_map]; omega), List.length_map, hw,
        Nat.sub_self, List.map_cons, List.set_cons_zero]
      rw [List.map_append, List.append_assoc] at h2
      rw [List.map_cons]
      simpa using h2
    · intro i c' v hc hv
      cases i with
      | zero =>
        cases hc
        cases hv
        exact ⟨rfl, w⟩
      | succ i => exact h4 i c' v hc hv

/-! ## Lists for which the condition holds, and lists for which it does not -/

/-- Lists without a common slice need no scratch object. -/
theorem C55_apart {xs ys : List Nat} (h : ∀ x ∈ xs, ∀ y ∈ ys, x / 65536 ≠ y / 65536) :
    ¬ (MixedSlice xs ys ∨ MixedBlock xs ys) := by
  have key : ∀ i, sliceCard xs i ≠ 0 → sliceCard ys i ≠ 0 → False := by
    intro i h1 h2
    obtain ⟨x, hx⟩ := List.exists_mem_of_length_pos (Nat.pos_of_ne_zero h1)
    obtain ⟨y, hy⟩ := List.exists_mem_of_length_pos (Nat.pos_of_ne_zero h2)
    rw [List.mem_filter, beq_iff_eq] at hx hy
    exact h x hx.1 y hy.1 (hx.2.trans hy.2.symm)
  rintro (⟨i, ⟨h1, h2⟩ | ⟨h1, h2⟩⟩ | ⟨i, b, -, h1, h2, -⟩) <;> exact key i h1.1 h2.1

/-- Nor do lists with at most 30 elements in each block of 256 values and at most 2730 in each slice. -/
theorem C55_scattered {xs ys : List Nat} (hx : Valid xs) (hy : Valid ys)
    (sx : ∀ i, sliceCard xs i ≤ 2730) (sy : ∀ i, sliceCard ys i ≤ 2730)
    (bx : ∀ j, blockCard xs j ≤ 30) (bY : ∀ j, blockCard ys j ≤ 30) :
    ¬ (MixedSlice xs ys ∨ MixedBlock xs ys) := by
  have key : ∀ {zs : List Nat} {i : Nat}, Valid zs → sliceCard zs i ≤ 2730 → AsBitmap zs i → False := by
    intro zs i hz h1 h2
    have := sparseCost_le hz.2.1 i
    exact h2.2.2 ⟨by omega, by omega⟩
  rintro (⟨i, ⟨h1, -⟩ | ⟨-, h1⟩⟩ | ⟨i, b, -, -, -, h1 | h1⟩)
  · exact key hx (sx i) h1
  · exact key hy (sy i) h1
  · have := bY (256 * i + b); omega
  · have := bx (256 * i + b); omega

/-- The lists of C34's witnesses are of the other kind. -/
theorem C55_bigSmall {i : Nat} {xs ys : List Nat} {l r : SSeq} (h : BigSmall dbg m i xs ys l r)
    (hne : ys ≠ []) : MixedSlice xs ys := by
  have hlx : sliceCard xs i = xs.length := sliceCard_one h.slice.1
  have hly : sliceCard ys i = ys.length := sliceCard_one h.slice.2
  have hp := List.length_pos_iff.mpr hne
  have := sparseCost_le h.valid.2.2.1 i
  have := h.big
  have := h.small
  refine ⟨i, Or.inl ⟨⟨by omega, by omega, fun hc => ?_⟩, ⟨by omega, by omega, by omega⟩⟩⟩
  omega

/-- Three unions at the same time, one of which uses the scratch objects: all are right, once that one
has had enough turns. -/
example : ∃ (m : Mem) (a b c : UnionCall true m), a.Quiet ∧ b.Quiet ∧ ¬ c.Quiet ∧
    a.xs = [3, 70000] ∧ b.xs = List.range 40000 ∧ c.xs = List.range 40000 ∧ c.ys = [3, 70000] ∧
    ∃ n, ∀ sched : List Nat, n ≤ sched.count 2 → ∃ va vb vc s',
      schedule sched [a.prog false, b.prog false, c.prog false] UScratch.init
        = .ok ([.ret va, .ret vb, .ret vc], s') ∧ a.Right va ∧ b.Right vb ∧ c.Right vc := by
  have key : ∀ big : List Nat, (∀ v, v ∈ big ↔ v < 40000) → big.Pairwise (· < ·) → big.length = 40000 →
      ∃ (m : Mem) (a b c : UnionCall true m), a.Quiet ∧ b.Quiet ∧ ¬ c.Quiet ∧
      a.xs = [3, 70000] ∧ b.xs = big ∧ c.xs = big ∧ c.ys = [3, 70000] ∧
      ∃ n, ∀ sched : List Nat, n ≤ sched.count 2 → ∃ va vb vc s',
        schedule sched [a.prog false, b.prog false, c.prog false] UScratch.init
          = .ok ([.ret va, .ret vb, .ret vc], s') ∧ a.Right va ∧ b.Right vb ∧ c.Right vc := by
    intro big hm hs hlen
    have v1 : Valid [3, 70000] := ⟨by decide, by decide, by decide⟩
    have v2 : Valid big := by
      refine ⟨fun h => ?_, hs, fun v hv => ?_⟩
      · rw [h] at hlen; exact absurd hlen (by decide)
      · have := (hm v).mp hv; omega
    obtain ⟨m, l, r, a, b, bx, bY, h1, h2, h3⟩ := stored_pair true v1 v2 31
    have ua : Enumerates [3, 70000] (fun v => v ∈ [3, 70000] ∨ v ∈ [3, 70000]) :=
      ⟨by decide, fun v => (or_self_iff).symm⟩
    have ub : Enumerates big (fun v => v ∈ big ∨ v ∈ big) := ⟨hs, fun v => (or_self_iff).symm⟩
    have uc : Enumerates (big ++ [70000]) (fun v => v ∈ big ∨ v ∈ [3, 70000]) := by
      refine ⟨List.pairwise_append.mpr ⟨hs, by decide, fun x hx y hy => ?_⟩, fun v => ?_⟩
      · have := (hm x).mp hx
        rw [List.mem_singleton] at hy
        omega
      · simp only [List.mem_append, List.mem_cons, List.not_mem_nil, or_false, hm]
        omega
    have self : ∀ zs, ¬ (MixedSlice zs zs ∨ MixedBlock zs zs) := by
      rintro zs (⟨i, ⟨h, h'⟩ | ⟨h', h⟩⟩ | ⟨i, b, -, -, -, h⟩)
      · exact not_both h h'
      · exact not_both h h'
      · omega
    let A : UnionCall true m := ⟨l, l, _, _, _, List.replicate 25 0,
      ⟨⟨v1, v1⟩, a, a, bx, bx, h1, h1, Or.inl rfl⟩, ua, by rw [List.length_replicate]; decide⟩
    let B : UnionCall true m := ⟨r, r, _, _, _, List.replicate 40023 0,
      ⟨⟨v2, v2⟩, b, b, bY, bY, h2, h2, Or.inl rfl⟩, ub, by rw [List.length_replicate]; omega⟩
    let C : UnionCall true m := ⟨r, l, _, _, _, List.replicate 40024 0,
      ⟨⟨v2, v1⟩, b, a, bY, bx, h2, h1, Or.inr (Or.inr h3)⟩, uc, by
        rw [List.length_replicate, List.length_append, hlen]; decide⟩
    have q1 : A.Quiet := self _
    have q2 : B.Quiet := self _
    have q3 : ¬ C.Quiet := by
      refine fun h => h (Or.inl ⟨0, Or.inl ⟨?_, ?_⟩⟩)
      · have : sliceCard big 0 = big.length := sliceCard_one (fun x hx => by have := (hm x).mp hx; omega)
        show sliceCard big 0 ≠ 0 ∧ sliceCard big 0 ≠ 65536 ∧ ¬ (sliceCard big 0 < 32768 ∧ _)
        rw [this, hlen]
        exact ⟨by omega, by omega, fun h => by omega⟩
      · have : sliceCard [3, 70000] 0 = 1 := by decide
        have := sparseCost_le v1.2.1 0
        show sliceCard [3, 70000] 0 ≠ 0 ∧ sliceCard [3, 70000] 0 < 32768 ∧ sparseCost [3, 70000] 0 < 8192
        omega
    refine ⟨m, A, B, C, q1, q2, q3, rfl, rfl, rfl, rfl, ?_⟩
    obtain ⟨n, hn⟩ := C55_unions (dbg := false) [A, B, C] 2 (fun i c hc hne => by
      match i with
      | 0 => cases hc; exact q1
      | 1 => cases hc; exact q2
      | 2 => exact absurd rfl hne
      | i + 3 => cases hc) UScratch.init UScratch.init_ok
    refine ⟨n, fun sched hs => ?_⟩
    obtain ⟨ps, s', e, hl, h⟩ := hn sched
    obtain ⟨p0, e0, r0, f0⟩ := h 0 A rfl
    obtain ⟨p1, e1, r1, f1⟩ := h 1 B rfl
    obtain ⟨p2, e2, r2, f2⟩ := h 2 C rfl
    obtain ⟨w0, rfl⟩ := f0 (by omega)
    obtain ⟨w1, rfl⟩ := f1 (by omega)
    obtain ⟨w2, rfl⟩ := f2 (fun _ => hs)
    have hps : ps = [.ret w0, .ret w1, .ret w2] := by
      match ps, hl, e0, e1, e2 with
      | [x, y, z], _, e0, e1, e2 => cases e0; cases e1; cases e2; rfl
    exact ⟨w0, w1, w2, s', hps ▸ e, r0 _ rfl, r1 _ rfl, r2 _ rfl⟩
  exact key _ (fun v => List.mem_range) List.pairwise_lt_range List.length_range

example : ¬ (MixedSlice (List.range 40000) [70000, 70001] ∨ MixedBlock (List.range 40000) [70000, 70001]) :=
  C55_apart (fun x hx y hy => by
    rw [List.mem_range] at hx
    simp only [List.mem_cons, List.not_mem_nil, or_false] at hy
    omega)

example : ¬ (MixedSlice [3, 5, 300, 70000] [5, 300] ∨ MixedBlock [3, 5, 300, 70000] [5, 300]) :=
  C55_scattered small_valid ⟨by decide, by decide, by decide⟩
    (fun i => Nat.le_trans (List.length_filter_le _ _) (by simp))
    (fun i => Nat.le_trans (List.length_filter_le _ _) (by simp))
    (fun i => Nat.le_trans (List.length_filter_le _ _) (by simp))
    (fun i => Nat.le_trans (List.length_filter_le _ _) (by simp))

end Sliced
