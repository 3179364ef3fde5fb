import Verif.Props.Queries
/-!
# Several sequences in one memory

`StoredAt` is `Stored` with the address and the bytes made explicit.
-/
namespace Sliced

/-- The builder made `bytes` from `xs`; they are at address `a` of `m`, followed by `pad` readable
bytes, and `s` is the sequence object constructed on them. -/
def StoredAt (dbg : Bool) (xs : List Nat) (pad : Nat) (m : Mem) (a : Nat) (bytes : List UInt8)
    (s : SSeq) : Prop :=
  (∃ st, build_sequence dbg xs [] = .ok (st, bytes)) ∧ Loaded m a bytes ∧
    Readable m (a + bytes.length) pad ∧ SSeq.ofAddr m a = .ok s

theorem StoredAt.stored {dbg : Bool} {xs : List Nat} {pad : Nat} {m : Mem} {a : Nat}
    {bytes : List UInt8} {s : SSeq} (h : StoredAt dbg xs pad m a bytes s) :
    Stored dbg xs pad m s := by
  obtain ⟨⟨st, h1⟩, h2, h3, h4⟩ := h
  exact ⟨a, st, bytes, h1, h2, h3, h4⟩

theorem Stored.at {dbg : Bool} {xs : List Nat} {pad : Nat} {m : Mem} {s : SSeq}
    (h : Stored dbg xs pad m s) : ∃ a bytes, StoredAt dbg xs pad m a bytes s := by
  obtain ⟨a, st, bytes, h1, h2, h3, h4⟩ := h
  exact ⟨a, bytes, ⟨st, h1⟩, h2, h3, h4⟩

/-- Where the chunk data of a stored sequence is. -/
theorem StoredAt.region {dbg : Bool} {xs : List Nat} {pad : Nat} {m : Mem} {a : Nat}
    {bytes : List UInt8} {s : SSeq} (h : StoredAt dbg xs pad m a bytes s) (hv : Valid xs) :
    a ≤ s.data ∧ s.data + offSum (chunksOf xs) = a + bytes.length := by
  obtain ⟨⟨st, h1⟩, h2, h3, h4⟩ := h
  obtain ⟨st', k, e, -⟩ := build_sequence_spec (dbg := dbg) hv []
  rw [h1] at e
  simp only [List.nil_append, Except.ok.injEq, Prod.mk.injEq] at e
  obtain ⟨-, rfl⟩ := e
  have hs : SeqAt pad m s (chunksOf xs) := Stored.repr ⟨a, st, _, h1, h2, h3, h4⟩ hv
  have hc := hs.chunks
  rw [seqBytes_length]
  unfold SSeq.ofAddr at h4
  cases e : rd16 m a with
  | error x => rw [e] at h4; simp at h4
  | ok c =>
    rw [e] at h4
    simp only [ok_bind, pure_ok, Except.ok.injEq] at h4
    subst h4
    simp only at hc
    simp only [associativity]
    omega

theorem except_ok_inj {ε α : Type} {x : Except ε α} {a b : α} (h : x = .ok a) (h' : x = .ok b) :
    a = b := by
  rw [h] at h'; exact Except.ok.inj h'

/-- Two sequences at the same address hold the same list. -/
theorem StoredAt.unique {dbg dbg' : Bool} {xs ys : List Nat} {m : Mem} {a : Nat}
    {bx bY : List UInt8} {l r : SSeq} (hx : Valid xs) (hy : Valid ys)
    (h : StoredAt dbg xs 31 m a bx l) (h' : StoredAt dbg' ys 31 m a bY r) : l = r ∧ xs = ys := by
  have e : l = r := except_ok_inj h.2.2.2 h'.2.2.2
  subst e
  refine ⟨rfl, ?_⟩
  have hc := Except.ok.inj ((C03_cardinality hx h.stored).1.symm.trans (C03_cardinality hy h'.stored).1)
  obtain ⟨o1, e1, t1⟩ := C01_decode_take (dbg' := true) hx h.stored
    (List.replicate (xs.length + 23) 0) (by rw [List.length_replicate]; exact Nat.le_refl _)
  obtain ⟨o2, e2, t2⟩ := C01_decode_take (dbg' := true) hy h'.stored
    (List.replicate (xs.length + 23) 0) (by rw [List.length_replicate, hc]; exact Nat.le_refl _)
  rw [e1] at e2
  have := (Prod.mk.inj (Except.ok.inj e2)).2
  rw [← t1, ← t2, this, hc]

/-- Two valid lists can be stored in one memory, apart from each other. -/
theorem stored_pair (dbg : Bool) {xs ys : List Nat} (hx : Valid xs) (hy : Valid ys) (pad : Nat) :
    ∃ m l r a b bx bY, StoredAt dbg xs pad m a bx l ∧ StoredAt dbg ys pad m b bY r ∧
      a + bx.length ≤ b := by
  obtain ⟨st, bx, e1, h1⟩ := stored_total dbg hx
  obtain ⟨st', bY, e2, h2⟩ := stored_total dbg hy
  let all := bx ++ (List.replicate pad 0 ++ bY)
  have hl := loaded_memOf 64 all pad
  have hr := readable_memOf 64 all pad
  obtain ⟨l1, l2⟩ := hl.append
  obtain ⟨l3, l4⟩ := l2.append
  have r3 := l3.readable
  rw [List.length_replicate] at r3 l4
  obtain ⟨s, es, -⟩ := h1 _ _ pad l1 r3
  have hrr : Readable (memOf 64 all pad) (64 + bx.length + pad + bY.length) pad := by
    have : 64 + bx.length + pad + bY.length = 64 + all.length := by
      simp only [all, List.length_append, List.length_replicate]; omega
    rw [this]; exact hr
  obtain ⟨t, et, -⟩ := h2 _ _ pad l4 hrr
  exact ⟨memOf 64 all pad, s, t, 64, 64 + bx.length + pad, bx, bY, ⟨⟨st, e1⟩, l1, r3, es⟩,
    ⟨⟨st', e2⟩, l4, hrr, et⟩, by omega⟩

/-- Each pair of `ps` is a valid list and a sequence object for it; all are in one memory. -/
def StoredAll (dbg : Bool) (pad : Nat) (m : Mem) (ps : List (List Nat × SSeq)) : Prop :=
  ∀ p ∈ ps, Valid p.1 ∧ Stored dbg p.1 pad m p.2

/-- Any number of valid lists can be stored in one memory. -/
theorem stored_many (dbg : Bool) (pad : Nat) (xss : List (List Nat)) (hv : ∀ xs ∈ xss, Valid xs) :
    ∃ m ps, ps.map Prod.fst = xss ∧ StoredAll dbg pad m ps := by
  have : ∃ bytes, ∀ m a, Loaded m a bytes → ∃ ps, ps.map Prod.fst = xss ∧ StoredAll dbg pad m ps := by
    induction xss with
    | nil => exact ⟨[], fun _ _ _ => ⟨[], rfl, fun p hp => by simp at hp⟩⟩
    | cons xs xss ih =>
      obtain ⟨bs, h⟩ := ih (fun x hx => hv x (List.mem_cons_of_mem _ hx))
      have hv1 := hv xs (List.mem_cons_self ..)
      obtain ⟨st, bx, e1, h1⟩ := stored_total dbg hv1
      refine ⟨bx ++ (List.replicate pad 0 ++ bs), ?_⟩
      intro m a hl
      obtain ⟨l1, l2⟩ := hl.append
      obtain ⟨l3, l4⟩ := l2.append
      have r3 := l3.readable
      rw [List.length_replicate] at r3
      obtain ⟨s, -, hs⟩ := h1 _ _ pad l1 r3
      obtain ⟨ps, e, hps⟩ := h _ _ l4
      refine ⟨(xs, s) :: ps, by rw [List.map_cons, e], ?_⟩
      intro p hp
      rcases List.mem_cons.mp hp with rfl | hp
      · exact ⟨hv1, hs⟩
      · exact hps p hp
  obtain ⟨bytes, h⟩ := this
  obtain ⟨ps, e, h⟩ := h _ _ (loaded_memOf 64 bytes 0)
  exact ⟨_, ps, e, h⟩

/-- A stored list with everything about it. -/
structure Placed where
  xs : List Nat
  a : Nat
  bytes : List UInt8
  s : SSeq

/-- Any number of valid lists can be stored in one memory, one after the other. -/
theorem stored_apart (dbg : Bool) (pad : Nat) (xss : List (List Nat)) (hv : ∀ xs ∈ xss, Valid xs) :
    ∃ m, ∃ ps : List Placed, ps.map Placed.xs = xss ∧
      (∀ p ∈ ps, StoredAt dbg p.xs pad m p.a p.bytes p.s) ∧
      ps.Pairwise (fun p q => p.a + p.bytes.length ≤ q.a) := by
  have : ∃ bytes, ∀ m a, Loaded m a bytes → ∃ ps : List Placed, ps.map Placed.xs = xss ∧
      (∀ p ∈ ps, StoredAt dbg p.xs pad m p.a p.bytes p.s ∧ a ≤ p.a) ∧
      ps.Pairwise (fun p q => p.a + p.bytes.length ≤ q.a) := by
    induction xss with
    | nil => exact ⟨[], fun _ _ _ => ⟨[], rfl, fun p hp => by simp at hp, List.Pairwise.nil⟩⟩
    | cons xs xss ih =>
      obtain ⟨bs, h⟩ := ih (fun x hx => hv x (List.mem_cons_of_mem _ hx))
      have hv1 := hv xs (List.mem_cons_self ..)
      obtain ⟨st, bx, e1, h1⟩ := stored_total dbg hv1
      refine ⟨bx ++ (List.replicate pad 0 ++ bs), ?_⟩
      intro m a hl
      obtain ⟨l1, l2⟩ := hl.append
      obtain ⟨l3, l4⟩ := l2.append
      have r3 := l3.readable
      rw [List.length_replicate] at r3 l4
      obtain ⟨s, es, hs⟩ := h1 _ _ pad l1 r3
      obtain ⟨ps, e, hps, hap⟩ := h _ _ l4
      refine ⟨⟨xs, a, bx, s⟩ :: ps, by rw [List.map_cons, e], ?_, ?_⟩
      · intro p hp
        rcases List.mem_cons.mp hp with rfl | hp
        · exact ⟨⟨⟨st, e1⟩, l1, r3, es⟩, Nat.le_refl _⟩
        · exact ⟨(hps p hp).1, by have := (hps p hp).2; omega⟩
      · refine List.pairwise_cons.mpr ⟨?_, hap⟩
        intro q hq
        have := (hps q hq).2
        show a + bx.length ≤ q.a
        omega
  obtain ⟨bytes, h⟩ := this
  obtain ⟨ps, e, h, hap⟩ := h _ _ (loaded_memOf 64 bytes 0)
  exact ⟨_, ps, e, fun p hp => (h p hp).1, hap⟩

end Sliced
