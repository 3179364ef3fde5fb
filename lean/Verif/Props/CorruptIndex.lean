import Verif.Props.Index
import Verif.Props.Corrupt
/-!
# What a corrupt index file can do (C65): the first words and the offsets

`s_index::mmap` (s_index.hpp:28-37) and `operator[]` (s_index.hpp:23-26) on any bytes: exactly which
bytes must be there, what the index then says of itself, and which damage to the first word is not
noticed.
-/
namespace Sliced

variable {m : Mem} {a i : Nat} {dbg : Bool} {idx : SIndex}

theorem rd_pair {α β γ : Type} {x : Res α} {y : Res β} {f : α → β → γ} {P Q : Prop}
    (hx : (P → ∃ v, x = .ok v) ∧ (¬ P → x = .error .ub))
    (hy : (Q → ∃ v, y = .ok v) ∧ (¬ Q → y = .error .ub)) :
    (P ∧ Q → ∃ v, (x >>= fun v => y >>= fun w => pure (f v w)) = .ok v) ∧
      (¬ (P ∧ Q) → (x >>= fun v => y >>= fun w => pure (f v w)) = .error .ub) := by
  refine ⟨fun ⟨h1, h2⟩ => ?_, fun h => ?_⟩
  · obtain ⟨v, hv⟩ := hx.1 h1
    obtain ⟨w, hw⟩ := hy.1 h2
    rw [hv, hw]
    exact ⟨_, rfl⟩
  · by_cases h1 : P
    · obtain ⟨v, hv⟩ := hx.1 h1
      rw [hv, hy.2 (fun h2 => h ⟨h1, h2⟩)]
      rfl
    · rw [hx.2 h1]
      rfl

theorem Readable.split {n k : Nat} : Readable m a (n + k) ↔ Readable m a n ∧ Readable m (a + n) k :=
  ⟨fun h => ⟨h.mono (by omega), h.shift (Nat.le_refl _)⟩, fun h => h.1.append h.2⟩

theorem rd8_iff (m : Mem) (a : Nat) :
    (Readable m a 1 → ∃ v, rd8 m a = .ok v) ∧ (¬ Readable m a 1 → rd8 m a = .error .ub) := by
  refine ⟨fun h => ?_, fun h => ?_⟩
  · obtain ⟨x, hx⟩ := Option.isSome_iff_exists.mp (h 0 (by omega))
    exact ⟨_, rd8_of hx⟩
  · refine rd8_none (Option.not_isSome_iff_eq_none.mp fun hs => h fun i hi => ?_)
    obtain rfl : i = 0 := by omega
    exact hs

theorem rd16_iff (m : Mem) (a : Nat) :
    (Readable m a 2 → ∃ v, rd16 m a = .ok v) ∧ (¬ Readable m a 2 → rd16 m a = .error .ub) := by
  rw [show Readable m a 2 ↔ Readable m a 1 ∧ Readable m (a + 1) 1 from Readable.split (n := 1) (k := 1)]
  exact rd_pair (rd8_iff m a) (rd8_iff m (a + 1))

theorem rd32_iff (m : Mem) (a : Nat) :
    (Readable m a 4 → ∃ v, rd32 m a = .ok v) ∧ (¬ Readable m a 4 → rd32 m a = .error .ub) := by
  rw [show Readable m a 4 ↔ Readable m a 2 ∧ Readable m (a + 2) 2 from Readable.split (n := 2) (k := 2)]
  exact rd_pair (rd16_iff m a) (rd16_iff m (a + 2))

theorem rd64_iff (m : Mem) (a : Nat) :
    (Readable m a 8 → ∃ v, rd64 m a = .ok v) ∧ (¬ Readable m a 8 → rd64 m a = .error .ub) := by
  rw [show Readable m a 8 ↔ Readable m a 4 ∧ Readable m (a + 4) 4 from Readable.split (n := 4) (k := 4)]
  exact rd_pair (rd32_iff m a) (rd32_iff m (a + 4))

/-- C65: opening an index is defined exactly if 16 bytes can be read. It checks nothing: the size is
the first word less 1 modulo 2^64 and the universe is the second word, whatever they are. -/
theorem C65_mmap (m : Mem) (a : Nat) :
    (Readable m a 16 → ∃ idx n, SIndex.mmap m a = .ok idx ∧ rd64 m a = .ok n ∧
      rd64 m (a + 8) = .ok idx.univ ∧ idx.size < 18446744073709551616 ∧
      (idx.size + 1) % 18446744073709551616 = n) ∧
    (¬ Readable m a 16 → SIndex.mmap m a = .error .ub) := by
  refine ⟨fun h => ?_, fun h => ?_⟩
  · obtain ⟨n, hn⟩ := (rd64_iff m a).1 (h.mono (by omega))
    obtain ⟨u, hu⟩ := (rd64_iff m (a + 8)).1 (h.shift (by omega))
    have hlt := rd64_lt hn
    refine ⟨_, n, by unfold SIndex.mmap; rw [hn]; simp only [ok_bind]; rw [hu]; rfl, hn, hu, ?_, ?_⟩
    · show u64 _ < _
      unfold u64; omega
    · show (u64 _ + 1) % _ = _
      unfold u64; omega
  · unfold SIndex.mmap
    by_cases h1 : Readable m a 8
    · obtain ⟨n, hn⟩ := (rd64_iff m a).1 h1
      rw [hn]
      simp only [ok_bind]
      rw [(rd64_iff m (a + 8)).2 fun h2 => h (h1.append h2)]
      rfl
    · rw [(rd64_iff m a).2 h1]
      rfl

/-- C65: `operator[]` for any index object: in a debug build it aborts for an `i` that is too large;
else it is defined exactly if the 8 bytes of the `i`-th offset can be read and the 2 bytes at that
offset. Offsets are not compared with anything. -/
theorem C65_get (dbg : Bool) (m : Mem) (idx : SIndex) (i : Nat) :
    (dbg = true → idx.size ≤ i → idx.get dbg m i = .error .abort) ∧
    (dbg = false ∨ i < idx.size →
      ((∃ s, idx.get dbg m i = .ok s) ↔
        ∃ o, rd64 m (idx.offsets + 8 * i) = .ok o ∧ Readable m (idx.sequences + o) 2) ∧
      ((¬ ∃ s, idx.get dbg m i = .ok s) → idx.get dbg m i = .error .ub)) := by
  refine ⟨?_, ?_⟩
  · rintro rfl h
    unfold SIndex.get
    rw [show decide (i < idx.size) = false from decide_eq_false (by omega)]
    rfl
  · intro h
    have ha : idx.get dbg m i = (rd64 m (idx.offsets + 8 * i) >>= fun o =>
        SSeq.ofAddr m (idx.sequences + o)) := by
      unfold SIndex.get
      rcases h with rfl | h
      · rfl
      · rw [cassert_of (decide_eq_true h)]; rfl
    rw [ha]
    by_cases h1 : Readable m (idx.offsets + 8 * i) 8
    · obtain ⟨o, ho⟩ := (rd64_iff m _).1 h1
      rw [ho]
      simp only [ok_bind]
      by_cases h2 : Readable m (idx.sequences + o) 2
      · obtain ⟨s, hs, -⟩ := C65_open h2
        rw [hs]
        exact ⟨⟨fun _ => ⟨o, rfl, h2⟩, fun _ => ⟨s, rfl⟩⟩, fun hn => absurd ⟨s, rfl⟩ hn⟩
      · have e : SSeq.ofAddr m (idx.sequences + o) = .error .ub := by
          unfold SSeq.ofAddr
          rw [(rd16_iff m _).2 h2]; rfl
        rw [e]
        refine ⟨⟨(by rintro ⟨s, hs⟩; cases hs), ?_⟩, fun _ => rfl⟩
        rintro ⟨o', ho', h2'⟩
        cases ho'
        exact absurd h2' h2
    · rw [(rd64_iff m _).2 h1]
      exact ⟨⟨(by rintro ⟨s, hs⟩; cases hs), (by rintro ⟨o, ho, -⟩; cases ho)⟩, fun _ => rfl⟩

theorem get_release (m : Mem) (idx : SIndex) (i : Nat) : idx.get false m i
    = rd64 m (idx.offsets + 8 * i) >>= fun o => SSeq.ofAddr m (idx.sequences + o) := rfl

/-- C65: with 0 as its first word, an index has 2^64 - 1 sequences: the assertion of `operator[]`
stops no access below that. -/
theorem C65_zero_size (h : Readable m a 16) (h0 : rd64 m a = .ok 0) :
    ∃ idx, SIndex.mmap m a = .ok idx ∧ idx.size = 18446744073709551615 := by
  obtain ⟨idx, n, e, hn, -, hlt, hsz⟩ := (C65_mmap m a).1 h
  rw [h0] at hn
  cases hn
  exact ⟨idx, e, by omega⟩

/-- C65: the three highest bits of the first word are lost when it is multiplied by 8. If they are
damaged, and nothing else, the index opens, its size is wrong by that much, and every sequence is
found where it was. -/
theorem C65_high_bits {m' : Mem} {n k : Nat} (h : rd64 m a = .ok n)
    (hk : n + 2305843009213693952 * k < 18446744073709551616)
    (h' : rd64 m' a = .ok (n + 2305843009213693952 * k)) (hm : ∀ p, a + 8 ≤ p → m' p = m p)
    (he : SIndex.mmap m a = .ok idx) (hn : 0 < n) :
    ∃ idx', SIndex.mmap m' a = .ok idx' ∧ idx'.size = idx.size + 2305843009213693952 * k ∧
      idx'.univ = idx.univ ∧ ∀ i, idx'.get false m' i = idx.get false m i := by
  have r8 : ∀ p, a + 8 ≤ p → rd8 m' p = rd8 m p := fun p hp => by unfold rd8; rw [hm p hp]
  have r16 : ∀ p, a + 8 ≤ p → rd16 m' p = rd16 m p := fun p hp => by
    unfold rd16; rw [r8 p hp, r8 (p + 1) (by omega)]
  have r32 : ∀ p, a + 8 ≤ p → rd32 m' p = rd32 m p := fun p hp => by
    unfold rd32; rw [r16 p hp, r16 (p + 2) (by omega)]
  have r64 : ∀ p, a + 8 ≤ p → rd64 m' p = rd64 m p := fun p hp => by
    unfold rd64; rw [r32 p hp, r32 (p + 4) (by omega)]
  unfold SIndex.mmap at he ⊢
  rw [h] at he
  rw [h', r64 _ (Nat.le_refl _)]
  simp only [ok_bind] at he ⊢
  cases hu : rd64 m (a + 8) with
  | error x => rw [hu] at he; cases he
  | ok u =>
    rw [hu] at he
    cases he
    refine ⟨_, rfl, ?_, rfl, fun i => ?_⟩
    · show u64 _ = u64 _ + _
      unfold u64; omega
    · have e8 : u64 ((n + 2305843009213693952 * k) * 8) = u64 (n * 8) := by unfold u64; omega
      rw [get_release, get_release]
      simp only [e8]
      rw [r64 _ (by show a + 8 ≤ a + 16 + 8 * i; omega)]
      refine bind_congr fun o => ?_
      unfold SSeq.ofAddr
      rw [r16 _ (by show a + 8 ≤ a + u64 (n * 8) + 8 + 8 + o; omega)]

/-! ## Examples -/

theorem rd64_zeros {m : Mem} (h : ∀ i, i < 8 → m (a + i) = some 0) : rd64 m a = .ok 0 := by
  have r : ∀ i, i < 8 → rd8 m (a + i) = .ok 0 := fun i hi => rd8_of (h i hi)
  have r16 : ∀ i, i < 7 → rd16 m (a + i) = .ok 0 := fun i hi =>
    rd16_of (r i (by omega)) (r (i + 1) (by omega))
  exact rd64_of (rd32_of (r16 0 (by omega)) (r16 2 (by omega))) (rd32_of (r16 4 (by omega)) (r16 6 (by omega)))

/-- A file of zeros: it opens as an index of 2^64 - 1 sequences. -/
example : ∃ idx, SIndex.mmap (fun p => if p < 4096 then some 0 else none) 0 = .ok idx ∧
    idx.size = 18446744073709551615 :=
  C65_zero_size (fun i hi => by simp only [Nat.zero_add]; rw [if_pos (by omega)]; rfl)
    (rd64_zeros (fun i hi => by simp only [Nat.zero_add]; rw [if_pos (by omega)]))

/-- and in a debug build `operator[]` opens a sequence for `i = 400`, but not for `i = 600`. -/
example : ∃ idx, SIndex.mmap (fun p => if p < 4096 then some 0 else none) 0 = .ok idx ∧
    (∃ s, idx.get true (fun p => if p < 4096 then some 0 else none) 400 = .ok s) ∧
    idx.get true (fun p => if p < 4096 then some 0 else none) 600 = .error .ub :=
  ⟨⟨16, 16, 18446744073709551615, 0⟩, rfl, ⟨⟨1, 18, 18, 26⟩, rfl⟩, rfl⟩

/-- The index of two lists with the highest bit of its first word set. -/
example : ∃ idx idx',
    SIndex.mmap (memOf 0 ([3, 0, 0, 0, 0, 0, 0, 0] ++ List.replicate 60 0) 0) 0 = .ok idx ∧
    SIndex.mmap (memOf 0 ([3, 0, 0, 0, 0, 0, 0, 128] ++ List.replicate 60 0) 0) 0 = .ok idx' ∧
    idx.size = 2 ∧ idx'.size = 2 + 2305843009213693952 * 4 ∧
    idx'.get false (memOf 0 ([3, 0, 0, 0, 0, 0, 0, 128] ++ List.replicate 60 0) 0) 1
      = idx.get false (memOf 0 ([3, 0, 0, 0, 0, 0, 0, 0] ++ List.replicate 60 0) 0) 1 := by
  obtain ⟨idx', e, h1, -, h3⟩ := C65_high_bits (n := 3) (k := 4) (a := 0)
    (m := memOf 0 ([3, 0, 0, 0, 0, 0, 0, 0] ++ List.replicate 60 0) 0)
    (m' := memOf 0 ([3, 0, 0, 0, 0, 0, 0, 128] ++ List.replicate 60 0) 0)
    (idx := ⟨16, 40, 2, 0⟩) rfl (by omega) rfl (by
      intro p hp
      unfold memOf
      rw [if_neg (by omega), if_neg (by omega), List.append_assoc, List.append_assoc, Nat.sub_zero,
        List.getElem?_append_right (l₁ := [3, 0, 0, 0, 0, 0, 0, 128]) hp,
        List.getElem?_append_right (l₁ := [3, 0, 0, 0, 0, 0, 0, 0]) hp]
      rfl) rfl (by omega)
  exact ⟨_, _, rfl, e, rfl, h1, h3 1⟩

end Sliced
