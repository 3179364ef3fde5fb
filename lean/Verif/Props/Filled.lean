import Verif.Proof.Filled
import Verif.Props.Buffer
/-!
# What the operations return they have written

C74: the slots that an operation counts in its result were all written by it, with values of 32 bits that
depend on memory (and the static buffers) only, not on what the output buffer held, for all contents of
memory.
-/
namespace Sliced

/-- If the operation ends well, then in every output buffer of the same size it ends well with the same
results, and the slots that it counts hold the same 32-bit values. -/
def Fresh {σ : Type} (op : List Nat → Nat → Res (σ × List Nat)) (count : σ → Nat) : Prop :=
  ∀ out k x o, op out k = .ok (x, o) → ∀ out₂ : List Nat, out₂.length = out.length →
    ∃ o₂, op out₂ k = .ok (x, o₂) ∧
      ∀ i, i < count x → ∃ v, v < 4294967296 ∧ o[k + i]? = some v ∧ o₂[k + i]? = some v

theorem Outputs.fresh {σ : Type} {op : List Nat → Nat → Res (σ × List Nat)} {count : σ → Nat}
    (h : Outputs op) (hf : ∀ out k, Post (fun r => Fill k (k + count r.1) r.2) (op out k)) :
    Fresh op count := by
  -- slots that hold a value of 33 bits beforehand are recognisable
  have key : ∀ (out : List Nat) k x o, op out k = .ok (x, o) →
      ∃ oM, op (List.replicate out.length 4294967296) k = .ok (x, oM) ∧
        ∀ i, i < count x → ∃ v, v < 4294967296 ∧ oM[k + i]? = some v ∧ o[k + i]? = some v := by
    intro out k x o e
    rcases h.contents out (List.replicate out.length 4294967296) k (by simp) with
      ⟨e', e1, -⟩ | ⟨y, o', oM, e1, e2, l1, l2, hq⟩
    · rw [e] at e1; cases e1
    · rw [e] at e1
      injection e1 with e1
      injection e1 with e1 e3
      subst e1 e3
      refine ⟨oM, e2, fun i hi => ?_⟩
      obtain ⟨v, hv, hlt⟩ := hf _ _ _ e2 (k + i) (Nat.le_add_right _ _) (by simp only; omega)
      simp only at hv
      refine ⟨v, hlt, hv, ?_⟩
      rcases hq (k + i) with h1 | ⟨-, h2⟩
      · rw [h1, hv]
      · exfalso
        rw [hv] at h2
        have hm := List.mem_of_getElem? h2.symm
        have := (List.mem_replicate.mp hm).2
        omega
  intro out k x o e out₂ hl
  obtain ⟨oM, e1, h1⟩ := key out k x o e
  rcases h.contents out out₂ k hl.symm with ⟨e', e2, -⟩ | ⟨y, o', o₂, e2, e3, -⟩
  · rw [e] at e2; cases e2
  · rw [e] at e2
    injection e2 with e2
    injection e2 with e2 e4
    subst e2 e4
    obtain ⟨oM', e5, h2⟩ := key out₂ k x o₂ e3
    rw [hl, e1] at e5
    injection e5 with e5
    injection e5 with _ e5
    subst e5
    refine ⟨o₂, e3, fun i hi => ?_⟩
    obtain ⟨v, hv, a1, a2⟩ := h1 i hi
    obtain ⟨w, hw, b1, b2⟩ := h2 i hi
    rw [a1] at b1
    injection b1 with b1
    subst b1
    exact ⟨v, hv, a2, b2⟩

theorem fill_none (k : Nat) (o : List Nat) : Fill k k o := fun i h1 h2 => by omega

/-- C74: `decode`, for every memory and every sequence object. -/
theorem C74_decode (dbg : Bool) (m : Mem) (s : SSeq) :
    Fresh (fun out k => s.decode dbg m out k) (fun n => n) :=
  (C73_decode dbg m s).fresh fun _ _ => (fill_none _ _).decode

/-- C74: `pairwise_intersection`, for every memory, every shuffle table as assumed throughout, every
state of its static vector. -/
theorem C74_intersection (dbg : Bool) {tab : Nat → List Nat} (ht : TabOk tab) (m : Mem) (l r : SSeq)
    (x : List Nat) :
    Fresh (fun out k => (fun p => ((p.1, p.2.1), p.2.2)) <$>
      pairwise_intersection dbg tab m l r x out k) (fun p => p.1) :=
  (C73_intersection dbg tab m l r x).fresh fun _ _ =>
    ((fill_none _ _).pairwise_intersection ht).map (fun _ h => h)

/-- C74: `pairwise_union`, for every memory and every state of its static buffers. -/
theorem C74_union (dbg : Bool) (m : Mem) (l r : SSeq) (s : UScratch) :
    Fresh (fun out k => (fun p => ((p.1, p.2.1), p.2.2)) <$> pairwise_union dbg m l r s out k)
      (fun p => p.1) :=
  (C73_union dbg m l r s).fresh fun _ _ => (fill_none _ _).pairwise_union.map (fun _ h => h)

/-- C74: `union_many`, for every memory, any sequence objects and every state of its static buffers. -/
theorem C74_union_many (dbg : Bool) (m : Mem) (qs : List SSeq) (s : MScratch) :
    Fresh (fun out k => (fun p => ((p.1, p.2.1), p.2.2)) <$> union_many dbg m qs s out k)
      (fun p => p.1) :=
  (C73_union_many dbg m qs s).fresh fun _ _ => (fill_none _ _).union_many.map (fun _ h => h)

/-- C74: `intersection` of many, for every memory, any sequence objects, any function for `std::sort` and
every state of its static buffers. -/
theorem C74_intersection_many (dbg : Bool) (sort : (SSeq → Nat) → List SSeq → List SSeq) (m : Mem)
    (qs : List SSeq) (s : IScratch) :
    Fresh (fun out k => (fun p => ((p.1, p.2.1, p.2.2.1), p.2.2.2)) <$>
      intersection dbg sort m qs s out k) (fun p => p.1) :=
  (C73_intersection_many dbg sort m qs s).fresh fun _ _ => (fill_none _ _).intersection.map (fun _ h => h)

/-- C74: the shuffle table has to have full rows: with an empty table `INTERSECT` counts a match and
stores nothing, so the slot still holds what it held. -/
theorem C74_table : ∃ m o, ss_intersect_block false (fun _ => []) m 0 0 1 1 0 [7] 0 = .ok (1, o) ∧
    o[0]? = some 7 := by
  refine ⟨fun _ => some 1, [7], ?_, rfl⟩
  decide

/-! ## Concrete cases -/

/-- Memory that is no encoding: every byte is 1, so there is one slice with two blocks of the same number
with two elements, which are equal.  `decode` returns four equal values, the same in every buffer. -/
example : ∃ o, (SSeq.mk 1 0 0 0).decode false (fun _ => some 1) (List.replicate 10 9) 0 = .ok (4, o) ∧
    o.take 4 = List.replicate 4 (257 * 65536 + 257) := by
  refine ⟨_, by rfl, by decide⟩

end Sliced
