import Verif.Spec
import Verif.Model.Util
/-! # Basic lemmas: the `Res` monad, buffers, sorted lists -/
namespace Sliced

@[simp] theorem ok_bind {α β : Type} (x : α) (f : α → Res β) : (Except.ok x >>= f) = f x := rfl
@[simp] theorem error_bind {α β : Type} (e : Err) (f : α → Res β) :
    ((Except.error e : Res α) >>= f) = .error e := rfl
@[simp] theorem pure_ok {α : Type} (x : α) : (pure x : Res α) = .ok x := rfl
@[simp] theorem map_ok {α β : Type} (f : α → β) (x : α) : f <$> (Except.ok x : Res α) = .ok (f x) := rfl
@[simp] theorem map_error {α β : Type} (f : α → β) (e : Err) :
    f <$> (Except.error e : Res α) = .error e := rfl

@[simp] theorem cassert_true (dbg : Bool) : cassert dbg true = .ok () := by
  cases dbg <;> rfl

theorem cassert_of {dbg : Bool} {c : Bool} (h : c = true) : cassert dbg c = .ok () := by
  subst h; simp

theorem u8_lt {x : Nat} (h : x < 256) : u8 x = x := Nat.mod_eq_of_lt h
theorem u16_lt {x : Nat} (h : x < 65536) : u16 x = x := Nat.mod_eq_of_lt h
theorem u32_lt {x : Nat} (h : x < 4294967296) : u32 x = x := Nat.mod_eq_of_lt h
theorem u64_lt {x : Nat} (h : x < 18446744073709551616) : u64 x = x := Nat.mod_eq_of_lt h

theorem sub32_eq {x y : Nat} (hx : x < 4294967296) (h : y ≤ x) : sub32 x y = x - y := by
  unfold sub32 u32; omega

/-! ## Loads -/

theorem rd8_lt {m : Mem} {a x : Nat} (h : rd8 m a = .ok x) : x < 256 := by
  unfold rd8 at h
  split at h
  · cases h; exact UInt8.toNat_lt _
  · cases h

theorem rd8_of {m : Mem} {a : Nat} {b : UInt8} (h : m a = some b) : rd8 m a = .ok b.toNat := by
  unfold rd8; rw [h]

theorem rd16_of {m : Mem} {a x y : Nat} (h0 : rd8 m a = .ok x) (h1 : rd8 m (a + 1) = .ok y) :
    rd16 m a = .ok (x + 256 * y) := by
  unfold rd16; rw [h0, h1]; rfl

theorem rd32_of {m : Mem} {a x y : Nat} (h0 : rd16 m a = .ok x) (h1 : rd16 m (a + 2) = .ok y) :
    rd32 m a = .ok (x + 65536 * y) := by
  unfold rd32; rw [h0, h1]; rfl

theorem rd64_of {m : Mem} {a x y : Nat} (h0 : rd32 m a = .ok x) (h1 : rd32 m (a + 4) = .ok y) :
    rd64 m a = .ok (x + 4294967296 * y) := by
  unfold rd64; rw [h0, h1]; rfl

theorem readable_rd8 {m : Mem} {a n : Nat} (h : Readable m a n) {i : Nat} (hi : i < n) :
    ∃ x, rd8 m (a + i) = .ok x ∧ x < 256 := by
  have := h i hi
  obtain ⟨b, hb⟩ := Option.isSome_iff_exists.mp this
  exact ⟨b.toNat, rd8_of hb, UInt8.toNat_lt _⟩

theorem Readable.mono {m : Mem} {a n n' : Nat} (h : Readable m a n) (hn : n' ≤ n) :
    Readable m a n' := fun i hi => h i (by omega)

theorem Readable.shift {m : Mem} {a n k n' : Nat} (h : Readable m a n) (hn : k + n' ≤ n) :
    Readable m (a + k) n' := fun i hi => by
  have := h (k + i) (by omega)
  rwa [← Nat.add_assoc] at this

/-! ## Buffers -/

theorem rdv_of {v : List Nat} {i x : Nat} (h : v[i]? = some x) : rdv v i = .ok x := by
  unfold rdv; rw [h]

theorem wr_of {out : List Nat} {i v : Nat} (h : i < out.length) : wr out i v = .ok (out.set i v) := by
  unfold wr; rw [if_pos h]

theorem Wrote.nil (out : List Nat) (p k : Nat) : Wrote out p [] k out := by
  refine ⟨rfl, fun _ _ => rfl, ?_, fun _ _ => rfl⟩
  intro i hi; simp at hi

theorem Wrote.length {out p L k out'} (h : Wrote out p L k out') : out'.length = out.length := h.1

theorem Wrote.append {out out1 out2 : List Nat} {p k : Nat} {L1 L2 : List Nat}
    (h1 : Wrote out p L1 k out1) (h2 : Wrote out1 (p + L1.length) L2 k out2) :
    Wrote out p (L1 ++ L2) k out2 := by
  obtain ⟨a1, b1, c1, d1⟩ := h1
  obtain ⟨a2, b2, c2, d2⟩ := h2
  refine ⟨by omega, ?_, ?_, ?_⟩
  · intro i hi
    rw [b2 i (by omega), b1 i hi]
  · intro i hi
    rw [List.length_append] at hi
    by_cases h : i < L1.length
    · rw [b2 (p + i) (by omega), c1 i h, List.getElem?_append_left h]
    · have := c2 (i - L1.length) (by omega)
      rw [List.getElem?_append_right (by omega), ← this]
      congr 1; omega
  · intro i hi
    rw [List.length_append] at hi
    rw [d2 i (by omega), d1 i (by omega)]

theorem Wrote.mono {out out' : List Nat} {p k k' : Nat} {L : List Nat}
    (h : Wrote out p L k out') (hk : k ≤ k') : Wrote out p L k' out' :=
  ⟨h.1, h.2.1, h.2.2.1, fun i hi => h.2.2.2 i (by omega)⟩

theorem Wrote.single {out : List Nat} {p v k : Nat} (h : p < out.length) :
    Wrote out p [v] k (out.set p v) := by
  refine ⟨by simp, ?_, ?_, ?_⟩
  · intro i hi; rw [List.getElem?_set_ne (by omega)]
  · intro i hi
    have : i = 0 := by simpa using hi
    subst this
    simp [h]
  · intro i hi
    simp at hi
    rw [List.getElem?_set_ne (by omega)]

/-- A buffer that was written can be written again from the same place. -/
theorem Wrote.take {out out' : List Nat} {p k : Nat} {L : List Nat} (h : Wrote out p L k out') :
    (out'.drop p).take L.length = L := by
  apply List.ext_getElem?
  intro i
  by_cases hi : i < L.length
  · rw [List.getElem?_take_of_lt hi, List.getElem?_drop, h.2.2.1 i hi]
  · rw [List.getElem?_take_eq_none (by omega), List.getElem?_eq_none (by omega)]

theorem wrs_of {vs : List Nat} {out : List Nat} {p : Nat} (h : p + vs.length ≤ out.length) :
    ∃ out', wrs out p vs = .ok out' ∧ Wrote out p vs 0 out' := by
  induction vs generalizing out p with
  | nil => exact ⟨out, rfl, Wrote.nil _ _ _⟩
  | cons v vs ih =>
    simp only [List.length_cons] at h
    have hp : p < out.length := by omega
    obtain ⟨out', e, w⟩ := ih (out := out.set p v) (p := p + 1) (by simp; omega)
    refine ⟨out', ?_, ?_⟩
    · simp only [wrs, wr_of hp, ok_bind, e]
    · exact Wrote.append (L1 := [v]) (Wrote.single hp) w

/-- The first `n` of the lanes that were written are the ones that count. -/
theorem Wrote.shrink {out out' : List Nat} {p k : Nat} {L : List Nat} (n : Nat)
    (h : Wrote out p L k out') (k' : Nat) (hk : L.length + k ≤ n + k') (hn : n ≤ L.length) :
    Wrote out p (L.take n) k' out' := by
  obtain ⟨a, b, c, d⟩ := h
  have hl : (L.take n).length = n := by rw [List.length_take]; omega
  refine ⟨a, b, ?_, ?_⟩
  · intro i hi
    rw [hl] at hi
    rw [c i (by omega), List.getElem?_take_of_lt hi]
  · intro i hi
    rw [hl] at hi
    exact d i (by omega)

/-! ## Strictly increasing lists -/

theorem sorted_ext {L1 L2 : List Nat} (h1 : L1.Pairwise (· < ·)) (h2 : L2.Pairwise (· < ·))
    (h : ∀ x, x ∈ L1 ↔ x ∈ L2) : L1 = L2 := by
  induction L1 generalizing L2 with
  | nil =>
    cases L2 with
    | nil => rfl
    | cons b L2 => have := (h b).mpr (by simp); simp at this
  | cons a L1 ih =>
    cases L2 with
    | nil => have := (h a).mp (by simp); simp at this
    | cons b L2 =>
      rw [List.pairwise_cons] at h1 h2
      have hab : a = b := by
        have ha := (h a).mp (by simp)
        have hb := (h b).mpr (by simp)
        rw [List.mem_cons] at ha hb
        rcases ha with ha | ha
        · exact ha
        · rcases hb with hb | hb
          · exact hb.symm
          · have := h1.1 b hb; have := h2.1 a ha; omega
      subst hab
      congr 1
      apply ih h1.2 h2.2
      intro x
      have := h x
      rw [List.mem_cons, List.mem_cons] at this
      constructor
      · intro hx
        rcases this.mp (Or.inr hx) with h' | h'
        · have := h1.1 x hx; omega
        · exact h'
      · intro hx
        rcases this.mpr (Or.inr hx) with h' | h'
        · have := h2.1 x hx; omega
        · exact h'

theorem Enumerates.unique {L1 L2 : List Nat} {P : Nat → Prop} (h1 : Enumerates L1 P)
    (h2 : Enumerates L2 P) : L1 = L2 :=
  sorted_ext h1.1 h2.1 (fun v => (h1.2 v).trans (h2.2 v).symm)

theorem range'_sorted (s n : Nat) : (List.range' s n).Pairwise (· < ·) := by
  simpa using List.pairwise_lt_range' (s := s) (n := n)

theorem range_sorted (n : Nat) : (List.range n).Pairwise (· < ·) := List.pairwise_lt_range

theorem filter_range_mem {L : List Nat} {n : Nat} (hs : L.Pairwise (· < ·)) (hb : ∀ x ∈ L, x < n) :
    (List.range n).filter (fun x => decide (x ∈ L)) = L := by
  apply sorted_ext ((range_sorted n).filter _) hs
  intro x
  simp only [List.mem_filter, List.mem_range, decide_eq_true_eq]
  exact ⟨fun h => h.2, fun h => ⟨hb x h, h⟩⟩

theorem sorted_length_le {L : List Nat} {lo hi : Nat} (hs : L.Pairwise (· < ·))
    (hb : ∀ x ∈ L, lo ≤ x ∧ x < hi) : L.length ≤ hi - lo := by
  induction L generalizing lo with
  | nil => simp
  | cons a L ih =>
    rw [List.pairwise_cons] at hs
    have ha := hb a (by simp)
    have := ih (lo := a + 1) hs.2 (fun x hx => ⟨hs.1 x hx, (hb x (by simp [hx])).2⟩)
    simp only [List.length_cons]
    omega

theorem sorted_length_le' {L : List Nat} {n : Nat} (hs : L.Pairwise (· < ·))
    (hb : ∀ x ∈ L, x < n) : L.length ≤ n := by
  simpa using sorted_length_le (lo := 0) hs (fun x hx => ⟨Nat.zero_le _, hb x hx⟩)

theorem pairwise_map_add {L : List Nat} (b : Nat) (hs : L.Pairwise (· < ·)) :
    (L.map (b + ·)).Pairwise (· < ·) := by
  rw [List.pairwise_map]
  exact hs.imp (fun h => by omega)

end Sliced
