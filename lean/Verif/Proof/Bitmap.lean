import Verif.Proof.Basic
import Verif.Model.Decode
/-! # Words and bitmaps: scanning, membership -/
namespace Sliced

/-- The first `n` words of `W` are the characteristic bitmap of `P`. -/
def BitsAt (W : Words) (n : Nat) (P : Nat → Bool) : Prop :=
  ∀ i, i < n → ∃ w, W i = .ok w ∧ w < 18446744073709551616 ∧
    ∀ j, j < 64 → w.testBit j = P (64 * i + j)

/-- The positions of the set bits of a word. -/
def bitsOf (w : Nat) : List Nat := (List.range 64).filter (fun j => w.testBit j)

theorem testBit_pred_of_lowest {w r : Nat} (hr : w.testBit r = true)
    (hlow : ∀ j, j < r → w.testBit j = false) (i : Nat) (hi : r ≤ i) :
    (w - 1).testBit i = (w.testBit i && decide (i ≠ r)) := by
  have hdvd : w % 2 ^ r = 0 := by
    apply Nat.eq_of_testBit_eq
    intro j
    rw [Nat.testBit_mod_two_pow, Nat.zero_testBit]
    by_cases hj : j < r
    · simp [hlow j hj]
    · simp [hj]
  obtain ⟨q, hq⟩ : ∃ q, w = 2 ^ r * q := by
    refine ⟨w / 2 ^ r, ?_⟩
    have := Nat.div_add_mod w (2 ^ r)
    omega
  have hqodd : q % 2 = 1 := by
    have := hr
    rw [hq] at this
    have h2 := Nat.testBit_two_pow_mul_add (i := r) q (b := 0) (Nat.two_pow_pos r) r
    rw [Nat.add_zero, if_neg (by omega), Nat.sub_self] at h2
    rw [h2] at this
    rw [Nat.testBit_zero] at this
    simpa using this
  obtain ⟨k, hk⟩ : ∃ k, q = 2 * k + 1 := ⟨q / 2, by omega⟩
  have hpos := Nat.two_pow_pos r
  have hw1 : w - 1 = 2 ^ r * (2 * k) + (2 ^ r - 1) := by
    rw [hq, hk, Nat.mul_add, Nat.mul_one]; omega
  have hw : w = 2 ^ r * (2 * k + 1) + 0 := by rw [hq, hk]; omega
  rw [hw1, Nat.testBit_two_pow_mul_add _ (by omega), if_neg (by omega)]
  rw [hw, Nat.testBit_two_pow_mul_add _ hpos, if_neg (by omega)]
  by_cases h : i = r
  · subst h
    simp
  · obtain ⟨d, hd⟩ : ∃ d, i - r = d + 1 := ⟨i - r - 1, by omega⟩
    rw [hd, Nat.testBit_succ, Nat.testBit_succ]
    simp only [h, ne_eq, not_false_eq_true, decide_true, Bool.and_true]
    congr 1; omega

theorem ctz_spec {w r : Nat} (h : ctz w = .ok r) :
    r < 64 ∧ w.testBit r = true ∧ ∀ j, j < r → w.testBit j = false := by
  unfold ctz at h
  split at h
  · rename_i r' hf
    cases h
    rw [List.find?_range_eq_some] at hf
    obtain ⟨h1, h2, h3⟩ := hf
    refine ⟨List.mem_range.mp h2, h1, ?_⟩
    intro j hj
    simpa using h3 j hj
  · cases h

theorem ctz_exists {w : Nat} (h0 : w ≠ 0) (hw : w < 18446744073709551616) : ∃ r, ctz w = .ok r := by
  unfold ctz
  split
  · exact ⟨_, rfl⟩
  · rename_i hf
    exfalso
    apply h0
    rw [List.find?_eq_none] at hf
    apply Nat.eq_of_testBit_eq
    intro j
    rw [Nat.zero_testBit]
    by_cases hj : j < 64
    · simpa using hf j (List.mem_range.mpr hj)
    · apply Nat.testBit_lt_two_pow
      calc w < 2 ^ 64 := hw
        _ ≤ 2 ^ j := Nat.pow_le_pow_right (by omega) (by omega)

theorem testBit_clear_lowest {w r : Nat} (hw : w < 18446744073709551616) (h : ctz w = .ok r)
    (i : Nat) :
    (w ^^^ (w &&& u64 ((18446744073709551615 - w) + 1))).testBit i
      = (w.testBit i && decide (i ≠ r)) := by
  obtain ⟨hr, hb, hlow⟩ := ctz_spec h
  have h0 : w ≠ 0 := by intro h0; subst h0; simp at hb
  have he : u64 ((18446744073709551615 - w) + 1) = 2 ^ 64 - ((w - 1) + 1) := by
    unfold u64; omega
  rw [he, Nat.testBit_xor, Nat.testBit_and, Nat.testBit_two_pow_sub_succ (by omega)]
  by_cases hi : i < r
  · simp [hlow i hi]
  · rw [testBit_pred_of_lowest hb hlow i (by omega)]
    by_cases h64 : i < 64
    · cases hwi : w.testBit i <;> simp [h64]
    · have : w.testBit i = false := by
        apply Nat.testBit_lt_two_pow
        calc w < 2 ^ 64 := hw
          _ ≤ 2 ^ i := Nat.pow_le_pow_right (by omega) (by omega)
      simp [this]

theorem clear_lowest_lt {w : Nat} (hw : w < 18446744073709551616) (x : Nat) :
    w ^^^ (w &&& x) < 18446744073709551616 := by
  have h1 : w < 2 ^ 64 := hw
  exact Nat.xor_lt_two_pow h1 (Nat.lt_of_le_of_lt Nat.and_le_left h1)

theorem bitsOf_clear {w r : Nat} (hw : w < 18446744073709551616) (h : ctz w = .ok r) :
    bitsOf w = r :: bitsOf (w ^^^ (w &&& u64 ((18446744073709551615 - w) + 1))) := by
  obtain ⟨hr, hb, hlow⟩ := ctz_spec h
  apply sorted_ext
  · exact (range_sorted 64).filter _
  · rw [List.pairwise_cons]
    refine ⟨?_, (range_sorted 64).filter _⟩
    intro x hx
    simp only [bitsOf, List.mem_filter, List.mem_range, testBit_clear_lowest hw h,
      Bool.and_eq_true, decide_eq_true_eq] at hx
    by_cases hxr : x < r
    · rw [hlow x hxr] at hx; simp at hx
    · have := hx.2.2; omega
  · intro x
    simp only [bitsOf, List.mem_cons, List.mem_filter, List.mem_range, testBit_clear_lowest hw h,
      Bool.and_eq_true, decide_eq_true_eq]
    constructor
    · rintro ⟨h1, h2⟩
      by_cases hx : x = r
      · exact Or.inl hx
      · exact Or.inr ⟨h1, h2, hx⟩
    · rintro (h1 | h1)
      · subst h1; exact ⟨hr, hb⟩
      · exact ⟨h1.1, h1.2.1⟩

theorem bitsOf_zero : bitsOf 0 = [] := by
  unfold bitsOf
  rw [List.filter_eq_nil_iff]
  intro a _; simp

theorem bitsOf_length_le (w : Nat) : (bitsOf w).length ≤ 64 := by
  unfold bitsOf
  exact Nat.le_trans (List.length_filter_le _ _) (by simp)

theorem mem_bitsOf {w x : Nat} : x ∈ bitsOf w ↔ x < 64 ∧ w.testBit x = true := by
  simp [bitsOf]

/-- `scan_word` writes the positions of the set bits. -/
theorem scan_word_spec (f : Nat) {w base p : Nat} {out : List Nat}
    (hw : w < 18446744073709551616) (hf : (bitsOf w).length < f)
    (hbase : base + 64 ≤ 4294967296) (hcap : p + (bitsOf w).length ≤ out.length) :
    ∃ out', scan_word f w base out p = .ok (p + (bitsOf w).length, out') ∧
      Wrote out p ((bitsOf w).map (base + ·)) 0 out' := by
  induction f generalizing w p out with
  | zero => omega
  | succ f ih =>
    unfold scan_word
    by_cases h0 : w = 0
    · subst h0
      refine ⟨out, ?_, ?_⟩
      · simp [bitsOf_zero]
      · rw [bitsOf_zero]; exact Wrote.nil _ _ _
    · obtain ⟨r, hr⟩ := ctz_exists h0 hw
      have hc := bitsOf_clear hw hr
      have hr64 := (ctz_spec hr).1
      rw [hc] at hf hcap
      simp only [List.length_cons] at hf hcap
      have hp : p < out.length := by omega
      obtain ⟨out', e, wrt⟩ := ih (w := w ^^^ (w &&& u64 ((18446744073709551615 - w) + 1)))
        (p := p + 1) (out := out.set p (u32 (r + base))) (clear_lowest_lt hw _) (by omega)
        (by simp; omega)
      refine ⟨out', ?_, ?_⟩
      · simp only [h0, if_false, hr, ok_bind, wr_of hp, e]
        rw [hc]; simp only [List.length_cons]
        congr 2; omega
      · rw [hc, List.map_cons]
        have hu : u32 (r + base) = base + r := by rw [u32_lt (by omega)]; omega
        rw [hu] at wrt
        exact Wrote.append (L1 := [base + r]) (Wrote.single hp) (by simpa using wrt)

theorem bitsOf_range' {w i : Nat} {P : Nat → Bool} (h : ∀ j, j < 64 → w.testBit j = P (64 * i + j))
    (b : Nat) : (bitsOf w).map ((b + 64 * i) + ·)
      = ((List.range' (64 * i) 64).filter P).map (b + ·) := by
  apply sorted_ext
  · exact pairwise_map_add _ ((range_sorted 64).filter _)
  · exact pairwise_map_add _ ((range'_sorted _ _).filter _)
  · intro x
    simp only [List.mem_map, mem_bitsOf, List.mem_filter, List.mem_range'_1]
    constructor
    · rintro ⟨j, ⟨h1, h2⟩, rfl⟩
      exact ⟨64 * i + j, ⟨by omega, by rw [← h j h1]; exact h2⟩, by omega⟩
    · rintro ⟨j, ⟨h1, h2⟩, rfl⟩
      refine ⟨j - 64 * i, ⟨by omega, ?_⟩, by omega⟩
      rw [h _ (by omega)]
      rw [show 64 * i + (j - 64 * i) = j by omega]; exact h2

theorem range'_split (i n : Nat) : List.range' (64 * i) (64 * (n + 1))
    = List.range' (64 * i) 64 ++ List.range' (64 * (i + 1)) (64 * n) := by
  rw [show 64 * (n + 1) = 64 + 64 * n by omega, show 64 * (i + 1) = 64 * i + 1 * 64 by omega,
    List.range'_append]

/-- The common loop of `decode_bitmap` and `OPERATE_BITMAPS`. -/
theorem decode_bitmap_loop_spec {W : Words} {P : Nat → Bool} (n i : Nat) {b p : Nat}
    {out : List Nat}
    (hW : BitsAt W (i + n) P) (hb : b + 64 * (i + n) ≤ 4294967296)
    (hcap : p + ((List.range' (64 * i) (64 * n)).filter P).length ≤ out.length) :
    ∃ out', decode_bitmap_loop W n i (u32 (b + 64 * i)) out p
        = .ok (p + ((List.range' (64 * i) (64 * n)).filter P).length, out') ∧
      Wrote out p (((List.range' (64 * i) (64 * n)).filter P).map (b + ·)) 0 out' := by
  induction n generalizing i p out with
  | zero => exact ⟨out, by simp [decode_bitmap_loop], by simpa using Wrote.nil _ _ _⟩
  | succ n ih =>
    obtain ⟨w, e1, hw, hbits⟩ := hW i (by omega)
    have hbase : u32 (b + 64 * i) = b + 64 * i := u32_lt (by omega)
    have hr := bitsOf_range' hbits b
    have hrl : (bitsOf w).length = ((List.range' (64 * i) 64).filter P).length := by
      have := congrArg List.length hr; simpa using this
    rw [range'_split] at hcap ⊢
    rw [List.filter_append, List.length_append] at hcap
    obtain ⟨out1, e2, w1⟩ := scan_word_spec 65 (w := w) (base := b + 64 * i) (p := p) (out := out)
      hw (by have := bitsOf_length_le w; omega) (by omega) (by omega)
    have hl1 := w1.length
    obtain ⟨out2, e3, w2⟩ := ih (i + 1) (p := p + (bitsOf w).length) (out := out1)
      (by rw [show i + 1 + n = i + (n + 1) by omega]; exact hW) (by omega) (by omega)
    refine ⟨out2, ?_, ?_⟩
    · simp only [decode_bitmap_loop, e1, ok_bind, hbase, e2]
      rw [show b + 64 * i + 64 = b + 64 * (i + 1) by omega, e3, List.filter_append,
        List.length_append, hrl, Nat.add_assoc]
    · rw [List.filter_append, List.map_append, ← hr]
      refine Wrote.append w1 ?_
      simpa using w2

theorem decode_bitmap_spec {W : Words} {P : Nat → Bool} {n b p : Nat} {out : List Nat}
    (hW : BitsAt W n P) (hb : b + 64 * n ≤ 4294967296)
    (hcap : p + ((List.range (64 * n)).filter P).length ≤ out.length) (hn : 0 < n) :
    ∃ out', decode_bitmap W n b out p = .ok (((List.range (64 * n)).filter P).length, out') ∧
      Wrote out p (((List.range (64 * n)).filter P).map (b + ·)) 0 out' := by
  rw [List.range_eq_range'] at hcap ⊢
  obtain ⟨out', e, w⟩ := decode_bitmap_loop_spec (W := W) (P := P) n 0 (b := b) (p := p) (out := out)
    (by simpa using hW) (by simpa using hb) (by simpa using hcap)
  refine ⟨out', ?_, by simpa using w⟩
  rw [Nat.mul_zero, Nat.add_zero, u32_lt (by omega)] at e
  unfold decode_bitmap
  rw [e]
  simp

/-- Word-wise combination of two bitmaps, as a word loader. -/
def opWords (op : Nat → Nat → Nat) (l r : Words) : Words := fun i => do
  let x ← l i
  let y ← r i
  return op x y

theorem operate_loop_eq (op : Nat → Nat → Nat) (l r : Words) (n i base : Nat) (out : List Nat)
    (p : Nat) :
    operate_loop op l r n i base out p = decode_bitmap_loop (opWords op l r) n i base out p := by
  induction n generalizing i base out p with
  | zero => rfl
  | succ n ih =>
    simp only [operate_loop, decode_bitmap_loop, opWords]
    cases l i with
    | error e => rfl
    | ok x =>
      cases r i with
      | error e => rfl
      | ok y =>
        simp only [ok_bind, pure_ok]
        congr 1
        funext q
        exact ih _ _ _ _

theorem operate_bitmaps_eq (op : Nat → Nat → Nat) (l r : Words) (n base : Nat) (out : List Nat)
    (p : Nat) :
    operate_bitmaps op l r n base out p = decode_bitmap (opWords op l r) n base out p := by
  unfold operate_bitmaps decode_bitmap
  rw [operate_loop_eq]

theorem BitsAt.and {l r : Words} {n : Nat} {P Q : Nat → Bool} (hl : BitsAt l n P)
    (hr : BitsAt r n Q) : BitsAt (opWords (fun a b => a &&& b) l r) n (fun x => P x && Q x) := by
  intro i hi
  obtain ⟨x, e1, h1, b1⟩ := hl i hi
  obtain ⟨y, e2, h2, b2⟩ := hr i hi
  refine ⟨x &&& y, by simp [opWords, e1, e2], ?_, ?_⟩
  · exact Nat.lt_of_le_of_lt Nat.and_le_left h1
  · intro j hj
    rw [Nat.testBit_and, b1 j hj, b2 j hj]

theorem BitsAt.or {l r : Words} {n : Nat} {P Q : Nat → Bool} (hl : BitsAt l n P)
    (hr : BitsAt r n Q) : BitsAt (opWords (fun a b => a ||| b) l r) n (fun x => P x || Q x) := by
  intro i hi
  obtain ⟨x, e1, h1, b1⟩ := hl i hi
  obtain ⟨y, e2, h2, b2⟩ := hr i hi
  refine ⟨x ||| y, by simp [opWords, e1, e2], ?_, ?_⟩
  · exact Nat.or_lt_two_pow (n := 64) h1 h2
  · intro j hj
    rw [Nat.testBit_or, b1 j hj, b2 j hj]

theorem bitmap_contains_spec {W : Words} {n : Nat} {P : Nat → Bool} (h : BitsAt W n P) {v : Nat}
    (hv : v < 64 * n) : bitmap_contains W v = .ok (P v) := by
  obtain ⟨w, e, _, hb⟩ := h (v / 64) (by omega)
  unfold bitmap_contains
  rw [e]
  simp only [ok_bind, pure_ok]
  rw [hb _ (by omega)]
  congr 2; omega

end Sliced
