import Verif.Proof.Buffer
import Verif.Props.ManyWay
/-!
# The output buffer of the operations

C73: `decode` and the set operations only store into their output buffer.  So the rest of a buffer, what
it held before and where in it the output starts make no difference, for all contents of memory
(encodings or not) and of the static buffers.
-/
namespace Sliced

/-- An operation that takes an output buffer and the slot where its output starts, and gives other
results and the buffer. -/
structure Outputs {σ : Type} (op : List Nat → Nat → Res (σ × List Nat)) : Prop where
  /-- A larger buffer: the same results, and the slots that were added are as they were; unless the
  smaller buffer is exceeded (or the operation is undefined for another reason). -/
  larger : ∀ out ext k, op out k = .error .ub ∨
    op (out ++ ext) k = (fun r => (r.1, r.2 ++ ext)) <$> op out k
  /-- Slots before the output: the same results (also the same errors), and those slots are as they
  were. -/
  position : ∀ front out k,
    op (front ++ out) (front.length + k) = (fun r => (r.1, front ++ r.2)) <$> op out k
  /-- Other contents: the same error, or the same results, and every slot that is not equal afterwards
  is as it was. -/
  contents : ∀ out out₂ k, out.length = out₂.length →
    (∃ e, op out k = .error e ∧ op out₂ k = .error e) ∨
    (∃ x o o₂, op out k = .ok (x, o) ∧ op out₂ k = .ok (x, o₂) ∧ o.length = out.length ∧
      o₂.length = out₂.length ∧
      ∀ q : Nat, o[q]? = o₂[q]? ∨ (o[q]? = out[q]? ∧ o₂[q]? = out₂[q]?))

theorem stores_larger (ext : List Nat) : Stores True (fun a b => b = a ++ ext) 0 := by
  intro a b i v h
  subst h
  unfold wr
  by_cases hi : i < a.length
  · rw [if_pos hi, if_pos (by simp; omega), Nat.add_zero, List.set_append_left _ _ hi]
    exact Sim.ok rfl
  · rw [if_neg hi]
    exact .inr (.inr ⟨trivial, rfl⟩)

theorem stores_position (front : List Nat) : Stores False (fun a b => b = front ++ a) front.length := by
  intro a b i v h
  subst h
  unfold wr
  by_cases hi : i < a.length
  · rw [if_pos hi, if_pos (by simp; omega), List.set_append_right _ _ (by omega), Nat.add_sub_cancel]
    exact Sim.ok rfl
  · rw [if_neg hi, if_neg (by simp; omega)]
    exact Sim.error _

theorem stores_contents {a₀ b₀ : List Nat} (hl : a₀.length = b₀.length) :
    Stores False (fun a b => a.length = a₀.length ∧ b.length = b₀.length ∧
      ∀ q : Nat, a[q]? = b[q]? ∨ (a[q]? = a₀[q]? ∧ b[q]? = b₀[q]?)) 0 := by
  rintro a b i v ⟨h1, h2, h3⟩
  unfold wr
  by_cases hi : i < a.length
  · rw [if_pos hi, if_pos (by omega)]
    refine Sim.ok ⟨by simp [h1], by simp [h2], fun q => ?_⟩
    rw [Nat.add_zero]
    by_cases hq : i = q
    · subst hq
      left
      rw [List.getElem?_set_self hi, List.getElem?_set_self (by omega)]
    · rw [List.getElem?_set_ne hq, List.getElem?_set_ne hq]
      exact h3 q
  · rw [if_neg hi, if_neg (by omega)]
    exact Sim.error _

theorem Outputs.of_sim {σ : Type} {op : List Nat → Nat → Res (σ × List Nat)}
    (h : ∀ L R d, Stores L R d → ∀ a b p q, R a b → q = p + d →
      Sim L (fun x y => y.1 = x.1 ∧ R x.2 y.2) (op a p) (op b q)) : Outputs op := by
  constructor
  · intro out ext k
    rcases h _ _ _ (stores_larger ext) out _ k k rfl rfl with ⟨x, y, e1, e2, h1, h2⟩ | ⟨e, e1, e2⟩ | ⟨-, e⟩
    · right
      rw [e1, e2]
      show Except.ok y = Except.ok (x.1, x.2 ++ ext)
      rw [← h1, ← h2]
    · right
      rw [e1, e2]
      rfl
    · exact .inl e
  · intro front out k
    rcases h _ _ _ (stores_position front) out _ k (front.length + k) rfl (Nat.add_comm _ _) with
      ⟨x, y, e1, e2, h1, h2⟩ | ⟨e, e1, e2⟩ | ⟨hf, -⟩
    · rw [e1, e2]
      show Except.ok y = Except.ok (x.1, front ++ x.2)
      rw [← h1, ← h2]
    · rw [e1, e2]
      rfl
    · exact hf.elim
  · intro out out₂ k hl
    rcases h _ _ _ (stores_contents hl) out out₂ k k ⟨rfl, rfl, fun q => .inr ⟨rfl, rfl⟩⟩ rfl with
      ⟨x, y, e1, e2, h1, h2, h3, h4⟩ | h | ⟨hf, -⟩
    · right
      refine ⟨x.1, x.2, y.2, e1, ?_, h2, h3, h4⟩
      rw [e2, ← h1]
    · exact .inl h
    · exact hf.elim

/-! ## The operations -/

/-- C73: `decode`, for every memory and every sequence object. -/
theorem C73_decode (dbg : Bool) (m : Mem) (s : SSeq) : Outputs (fun out k => s.decode dbg m out k) :=
  .of_sim fun _ _ _ hR _ _ _ _ h hq => hR.decode h hq

/-- C73: `pairwise_intersection`, for every memory, every table and every state of its static vector. -/
theorem C73_intersection (dbg : Bool) (tab : Nat → List Nat) (m : Mem) (l r : SSeq) (x : List Nat) :
    Outputs (fun out k => (fun p => ((p.1, p.2.1), p.2.2)) <$>
      pairwise_intersection dbg tab m l r x out k) :=
  .of_sim fun _ _ _ hR _ _ _ _ h hq => (hR.pairwise_intersection h hq).map
    (fun u v huv => ⟨by simp only; rw [huv.1, huv.2.1], huv.2.2⟩)

/-- C73: `pairwise_union`, for every memory and every state of its static buffers. -/
theorem C73_union (dbg : Bool) (m : Mem) (l r : SSeq) (s : UScratch) :
    Outputs (fun out k => (fun p => ((p.1, p.2.1), p.2.2)) <$> pairwise_union dbg m l r s out k) :=
  .of_sim fun _ _ _ hR _ _ _ _ h hq => (hR.pairwise_union h hq).map
    (fun u v huv => ⟨by simp only; rw [huv.1, huv.2.1], huv.2.2⟩)

/-- C73: `union_many`, for every memory, any sequence objects and every state of its static buffers. -/
theorem C73_union_many (dbg : Bool) (m : Mem) (qs : List SSeq) (s : MScratch) :
    Outputs (fun out k => (fun p => ((p.1, p.2.1), p.2.2)) <$> union_many dbg m qs s out k) :=
  .of_sim fun _ _ _ hR _ _ _ _ h hq => (hR.union_many h hq).map
    (fun u v huv => ⟨by simp only; rw [huv.1, huv.2.1], huv.2.2⟩)

/-- C73: `intersection` of many, for every memory, any sequence objects, any function for `std::sort` and
every state of its static buffers. -/
theorem C73_intersection_many (dbg : Bool) (sort : (SSeq → Nat) → List SSeq → List SSeq) (m : Mem)
    (qs : List SSeq) (s : IScratch) :
    Outputs (fun out k => (fun p => ((p.1, p.2.1, p.2.2.1), p.2.2.2)) <$>
      intersection dbg sort m qs s out k) :=
  .of_sim fun _ _ _ hR _ _ _ _ h hq => (hR.intersection h hq).map
    (fun u v huv => ⟨by simp only; rw [huv.1, huv.2.1, huv.2.2.1], huv.2.2.2⟩)

/-! ## Consequences -/

/-- C73: an operation with these three properties leaves the size of the buffer and everything before the
start of its output as they were, and a buffer that is large enough stays large enough when it grows. -/
theorem C73_before {σ : Type} {op : List Nat → Nat → Res (σ × List Nat)} (h : Outputs op)
    {out o : List Nat} {k : Nat} {x : σ} (e : op out k = .ok (x, o)) :
    o.length = out.length ∧ (∀ i, i < k → o[i]? = out[i]?) ∧
    ∀ ext, op (out ++ ext) k = .ok (x, o ++ ext) := by
  have hl : o.length = out.length := by
    rcases h.contents out out k rfl with ⟨e', e1, -⟩ | ⟨x', o', o₂, e1, -, e3, -⟩
    · rw [e] at e1; cases e1
    · rw [e] at e1
      injection e1 with e1
      injection e1 with _ e1
      rw [e1, e3]
  refine ⟨hl, fun i hi => ?_, fun ext => ?_⟩
  · have hp := h.position (out.take k) (out.drop k) (k - (out.take k).length)
    have hk : (out.take k).length ≤ k := by simp; omega
    rw [List.take_append_drop, Nat.add_sub_cancel' hk, e] at hp
    match hr : op (out.drop k) (k - (out.take k).length), hp with
    | .error e', hp => cases hp
    | .ok r, hp =>
      injection hp with hp
      injection hp with _ hp
      by_cases hlt : i < out.length
      · have : i < (out.take k).length := by simp; omega
        rw [hp, List.getElem?_append_left this, List.getElem?_take_of_lt hi]
      · rw [List.getElem?_eq_none (by omega), List.getElem?_eq_none (by omega)]
  · rcases h.larger out ext k with h | h
    · rw [e] at h; cases h
    · rw [h, e]
      rfl

theorem error_of_map {α β : Type} {f : α → β} {x : Res α} {e : Err} (h : f <$> x = .error e) :
    x = .error e := by
  cases x with
  | ok a => cases h
  | error e' => cases h; rfl

theorem ok_of_map {α β : Type} {f : α → β} {x : Res α} {b : β} (h : f <$> x = .ok b) :
    ∃ a, x = .ok a ∧ f a = b := by
  cases x with
  | ok a => exact ⟨a, rfl, by injection h⟩
  | error e' => cases h

/-- The values that an operation on valid lists gives are below 4294967296. -/
theorem valid_lt {xs : List Nat} (hv : Valid xs) {v : Nat} (h : v ∈ xs) : v < 4294967296 := by
  have := hv.2.2 v h
  omega

/-- an operation that writes `Z` if there is room for it, is undefined if there is not -/
theorem Outputs.short {σ : Type} {op : List Nat → Nat → Res (σ × List Nat)} (h : Outputs op)
    {Z : List Nat} (hb : ∀ v ∈ Z, v < 4294967296) {k : Nat}
    (hw : ∀ out : List Nat, k + Z.length ≤ out.length → ∃ x o, op out k = .ok (x, o) ∧ Wrote out k Z 0 o)
    {out : List Nat} (hk : k ≤ out.length) (hs : out.length < k + Z.length) : op out k = .error .ub := by
  obtain ⟨n, hn⟩ : ∃ n, k + Z.length = out.length + (n + 1) := ⟨k + Z.length - out.length - 1, by omega⟩
  obtain ⟨x, o, e, -, -, w, -⟩ := hw (out ++ List.replicate (n + 1) 4294967296) (by simp; omega)
  rcases h.larger out (List.replicate (n + 1) 4294967296) k with h1 | h1
  · exact h1
  · exfalso
    rw [e] at h1
    match hr : op out k, h1 with
    | .error e', h1 => cases h1
    | .ok r, h1 =>
      injection h1 with h1
      injection h1 with _ h1
      have hlr := (C73_before h (x := r.1) (o := r.2) hr).1
      have hz : out.length - k < Z.length := by omega
      have w1 := w (out.length - k) hz
      rw [Nat.add_sub_cancel' hk, h1, List.getElem?_append_right (by omega), hlr, Nat.sub_self,
        List.getElem?_replicate_of_lt (by omega), List.getElem?_eq_getElem hz] at w1
      injection w1 with w1
      have := hb _ (List.getElem_mem hz)
      omega

variable {dbg dbg' : Bool} {pad : Nat} {m : Mem} {ps : List (List Nat × SSeq)} {Z : List Nat}

/-- C73: `union_many` of encodings needs room for exactly the result (`Z` is the union): with that room
it writes `Z` and nothing else, with any less it stores outside the buffer. -/
theorem C73_union_room (hps : StoredAll dbg' pad m ps) (hne : ps ≠ [])
    (hZ : Enumerates Z (fun v => ∃ p ∈ ps, v ∈ p.1)) (s : MScratch) (hs : s.Ok)
    (out : List Nat) (k : Nat) (hk : k ≤ out.length) :
    (k + Z.length ≤ out.length → ∃ s' out', union_many dbg m (ps.map Prod.snd) s out k
      = .ok (Z.length, s', out') ∧ s'.Ok ∧ Wrote out k Z 0 out') ∧
    (out.length < k + Z.length → union_many dbg m (ps.map Prod.snd) s out k = .error .ub) := by
  refine ⟨fun h => C13_union hps hne hZ s hs out k h, fun h => ?_⟩
  have hb : ∀ v ∈ Z, v < 4294967296 := by
    intro v hv
    obtain ⟨p, hp, hv⟩ := (hZ.2 v).mp hv
    exact valid_lt (hps p hp).1 hv
  have := (C73_union_many dbg m (ps.map Prod.snd) s).short hb (k := k) (fun out h => by
    obtain ⟨s', o, e, -, w⟩ := C13_union (dbg := dbg) hps hne hZ s hs out k h
    exact ⟨_, o, by rw [e]; rfl, w⟩) hk h
  exact error_of_map this

/-- C73: `intersection` of encodings needs room for exactly the result (`Z` is the intersection). -/
theorem C73_intersection_room {sort : (SSeq → Nat) → List SSeq → List SSeq} (hsort : SortOk sort)
    (hps : StoredAll dbg' pad m ps) (hne : ps ≠ [])
    (hZ : Enumerates Z (fun v => ∀ p ∈ ps, v ∈ p.1)) (s : IScratch) (hs : s.Ok)
    (out : List Nat) (k : Nat) (hk : k ≤ out.length) :
    (k + Z.length ≤ out.length → ∃ (qs : List SSeq) (s' : IScratch) (out' : List Nat),
      intersection dbg sort m (ps.map Prod.snd) s out k = .ok (Z.length, qs, s', out') ∧ s'.Ok ∧
        Wrote out k Z 0 out') ∧
    (out.length < k + Z.length → intersection dbg sort m (ps.map Prod.snd) s out k = .error .ub) := by
  refine ⟨fun h => ?_, fun h => ?_⟩
  · obtain ⟨qs, s', o, e, -, -, ok, w⟩ := C12_intersection (dbg := dbg) hsort hps hne hZ s hs out k h
    exact ⟨_, s', o, e, ok, w⟩
  have hb : ∀ v ∈ Z, v < 4294967296 := by
    intro v hv
    obtain ⟨p, hp⟩ := List.exists_mem_of_ne_nil _ hne
    exact valid_lt (hps p hp).1 ((hZ.2 v).mp hv p hp)
  have := (C73_intersection_many dbg sort m (ps.map Prod.snd) s).short hb (k := k) (fun out h => by
    obtain ⟨qs, s', o, e, -, -, -, w⟩ := C12_intersection (dbg := dbg) hsort hps hne hZ s hs out k h
    exact ⟨_, o, by rw [e]; rfl, w⟩) hk h
  exact error_of_map this

/-! ## Concrete cases -/

/-- Memory without encodings: `decode` is undefined in every buffer alike. -/
example : ∃ s : SSeq, (s.decode false (fun _ => none) [7, 8] 0 = .error .ub) := by
  refine ⟨⟨1, 0, 0, 0⟩, ?_⟩
  rfl

/-- Two lists, a buffer between other data: what is in front of it and behind it stays. -/
example : ∃ m l r x' o, pairwise_intersection false stdTab m l r (List.replicate 1024 0)
      (List.replicate 25 0) 0 = .ok (2, x', o) ∧ o.take 2 = [5, 300] ∧
    pairwise_intersection false stdTab m l r (List.replicate 1024 0)
      ([1, 2, 3] ++ (List.replicate 25 0 ++ [4, 5])) 3 = .ok (2, x', [1, 2, 3] ++ (o ++ [4, 5])) := by
  have hy : Valid [5, 300] := valid_of_lt (by simp) (by decide) (by decide)
  obtain ⟨m, l, r, a, b, bx, bY, hl, hr, -⟩ := stored_pair true small_valid hy 31
  have hZ : Enumerates [5, 300] (fun v => v ∈ [3, 5, 300, 70000] ∧ v ∈ [5, 300]) := by
    refine ⟨by decide, fun v => ?_⟩
    simp
    omega
  obtain ⟨x', o, e, -, w⟩ := C10_intersection (dbg := false) stdTab_ok small_valid hy hl.stored hr.stored hZ
    (List.replicate 1024 0) List.length_replicate (List.replicate 25 0) 0 (by simp)
  have hop := C73_intersection false stdTab m l r (List.replicate 1024 0)
  have h1 := (C73_before hop (out := List.replicate 25 0) (o := o) (k := 0) (x := (2, x'))
    (by rw [e]; rfl)).2.2 [4, 5]
  have h2 := hop.position [1, 2, 3] (List.replicate 25 0 ++ [4, 5]) 0
  rw [h1] at h2
  obtain ⟨⟨n, y, z⟩, e1, e2⟩ := ok_of_map h2
  injection e2 with e2 e3
  injection e2 with e2 e4
  simp only at e2 e3 e4
  refine ⟨m, l, r, x', o, e, w.take_zero, ?_⟩
  subst e2 e3 e4
  exact e1

/-- The union of the same list with itself has 4 elements: 4 slots are enough, 3 are not. -/
example : ∃ m q, (∃ s' o, union_many false m [q, q] MScratch.init [0, 0, 0, 0] 0 = .ok (4, s', o)) ∧
    union_many false m [q, q] MScratch.init [0, 0, 0] 0 = .error .ub ∧
    intersection false stdSort m [q, q] IScratch.init [9, 0, 0, 0] 1 = .error .ub := by
  obtain ⟨m, q, hq⟩ := stored_exists true small_valid 0
  have hps : StoredAll true 0 m [([3, 5, 300, 70000], q), ([3, 5, 300, 70000], q)] := by
    intro p hp
    have : p = ([3, 5, 300, 70000], q) := by simpa using hp
    rw [this]
    exact ⟨small_valid, hq⟩
  have hZ : Enumerates [3, 5, 300, 70000]
      (fun v => ∃ p ∈ [([3, 5, 300, 70000], q), ([3, 5, 300, 70000], q)], v ∈ p.1) :=
    ⟨by decide, fun v => by simp⟩
  have hZ' : Enumerates [3, 5, 300, 70000]
      (fun v => ∀ p ∈ [([3, 5, 300, 70000], q), ([3, 5, 300, 70000], q)], v ∈ p.1) :=
    ⟨by decide, fun v => by simp⟩
  have h1 := (C73_union_room (dbg := false) hps (by simp) hZ MScratch.init MScratch.init_ok
    [0, 0, 0, 0] 0 (by simp)).1 (by simp)
  have h2 := (C73_union_room (dbg := false) hps (by simp) hZ MScratch.init MScratch.init_ok
    [0, 0, 0] 0 (by simp)).2 (by simp)
  have h3 := (C73_intersection_room (dbg := false) stdSort_ok hps (by simp) hZ' IScratch.init
    IScratch.init_ok [9, 0, 0, 0] 1 (by simp)).2 (by simp)
  obtain ⟨s', o, e, -, -⟩ := h1
  exact ⟨m, q, ⟨s', o, e⟩, h2, h3⟩

end Sliced
