import Verif.Proof.Float
import Verif.Model.Events
import Verif.Props.Generators
import Verif.Props.Print
import Verif.Props.TestsNextGeq
/-!
# C63: the parts of the code that compute in floating point

The density test of the filter, the choice of events in gen_clustered_data.cpp, and the averages of
`statistics::print`, with the arithmetic of IEEE 754 (`double` and `float`, round to nearest, ties to
even).
-/
namespace Sliced

/-! ## The arithmetic -/

/-- C63: what the model calls rounding is rounding: the result has `p` significant bits, … -/
theorem C63_round_fits {p num den : Nat} (hp : 0 < p) (hd : 0 < den) : Fits p (rnd p num den) :=
  fits_rnd hp hd

/-- C63: … no value with `p` significant bits is closer to `num / den` … -/
theorem C63_round_nearest {p num den w : Nat} (hp : 0 < p) (hd : 0 < den) (hw : Fits p w) :
    (rnd p num den * den - num) + (num - rnd p num den * den)
      ≤ (w * den - num) + (num - w * den) := rnd_nearest hp hd hw

/-- C63: … of two that are equally close it is the one with more zeros at its end, … -/
theorem C63_round_even {p num den w : Nat} (hp : 0 < p) (hd : 0 < den) (hw : Fits p w)
    (hne : w ≠ rnd p num den)
    (htie : (rnd p num den * den - num) + (num - rnd p num den * den)
      = (w * den - num) + (num - w * den)) (k : Nat) (hk : 2 ^ k ∣ w) :
    2 ^ (k + 1) ∣ rnd p num den := by
  obtain ⟨e, c, d, e1, e2⟩ := rnd_tie hp hd hw hne htie
  have hke : k ≤ e := by
    refine Nat.le_of_not_lt (fun hlt => ?_)
    obtain ⟨t, ht⟩ := Nat.dvd_trans (Nat.pow_dvd_pow 2 hlt) hk
    rw [ht, Nat.pow_succ, Nat.mul_assoc, Nat.mul_comm (2 * d + 1)] at e2
    have := Nat.eq_of_mul_eq_mul_left (Nat.two_pow_pos e) e2
    omega
  rw [e1, Nat.mul_comm 2 c, Nat.mul_assoc, ← Nat.pow_succ']
  exact Nat.dvd_trans (Nat.pow_dvd_pow 2 (by omega)) (Nat.dvd_mul_left _ _)

/-- C63: … and it depends only on the quotient, monotonically. -/
theorem C63_round_mono {p a c b d : Nat} (hp : 0 < p) (hc : 0 < c) (hd : 0 < d)
    (h : a * d ≤ b * c) : rnd p a c ≤ rnd p b d := rnd_mono hp hc hd h

theorem rnd_scale {p a b c : Nat} (hp : 0 < p) (hb : 0 < b) (hc : 0 < c) :
    rnd p (a * c) (b * c) = rnd p a b := by
  have e : a * c * b = a * (b * c) := by rw [Nat.mul_assoc, Nat.mul_comm c b]
  exact Nat.le_antisymm (rnd_mono hp (Nat.mul_pos hb hc) hb (Nat.le_of_eq e))
    (rnd_mono hp hb (Nat.mul_pos hb hc) (Nat.le_of_eq e.symm))

/-- 5/2 and 7/2 with two significant bits: 2 and 4; both have another value as close -/
example : rnd 2 5 2 = 2 ∧ rnd 2 7 2 = 4 ∧ Fits 2 3 ∧ 3 * 2 - 5 = 5 - 2 * 2 ∧ 7 - 3 * 2 = 4 * 2 - 7 := by
  refine ⟨by decide +kernel, by decide +kernel, ⟨3, 0, by decide, by decide⟩, by decide, by decide⟩

theorem dunit_pos : 0 < dunit := Nat.two_pow_pos _
theorem funit_pos : 0 < funit := Nat.two_pow_pos _

theorem fits_nat {n : Nat} (h : n < 2 ^ 53) : Fits 53 (n * dunit) := (fits_small h).mul_pow _

theorem dofNat_exact {n : Nat} (h : n < 2 ^ 53) : dofNat n = n * dunit := by
  have := rnd_fix (fits_nat h) (by decide : 0 < 1)
  rwa [Nat.mul_one] at this

theorem ddiv_exact {n u : Nat} (hn : n < 2 ^ 53) (hu : u < 2 ^ 53) (h0 : 0 < u) :
    ddiv (dofNat n) (dofNat u) = rnd 53 (n * dunit) u := by
  unfold ddiv
  rw [dofNat_exact hn, dofNat_exact hu]
  exact rnd_scale (by decide) h0 dunit_pos

/-! ## The density test -/

variable {xs : List Nat} {v w u size : Nat}

/-- the filter with a finite density `v` that is not negative, for a list that is not longer than the
size threshold -/
theorem pass_density {n : Nat} (h0 : 0 < n) (hs : n ≤ size) (hn : n < 2 ^ 53) (hu : u < 2 ^ 53) :
    pass { denser := density_test (.fin v), size := size } n u = true ↔
      u = 0 ∨ v < rnd 53 (n * dunit) u := by
  unfold pass density_test
  have hn0 : (n == 0) = false := by simp; omega
  have hns : ¬ n > size := by omega
  simp only [hn0, Bool.false_and, Bool.not_false, Bool.true_and, hns, if_false]
  by_cases hu0 : u = 0
  · subst hu0; simp
  · rw [ddiv_exact hn hu (by omega)]
    have : (u == 0) = false := by simpa using hu0
    rw [this, Bool.false_or]
    by_cases h : v < rnd 53 (n * dunit) u
    · simp [h]
    · simp [h, hu0]

/-- C63: a list that is kept for its density and not for its length is a list with the single element
0 (the quotient is infinite then), or its length over its largest element is above the threshold: the
rounding never lets a list pass that is not dense enough. -/
theorem C63_density_sound (hv : Valid xs) (hu : xs.getLast?.getD 0 = u) (hs : xs.length ≤ size)
    (hd : Fits 53 v)
    (h : pass { denser := density_test (.fin v), size := size } xs.length u = true) :
    xs = [0] ∨ v * u < xs.length * dunit := by
  have hpos := List.length_pos_iff.mpr hv.1
  have hlen : xs.length ≤ 4294901760 := sorted_length_le' hv.2.1 hv.2.2
  obtain ⟨u', hu', hum, hul⟩ := last_facts hv
  rw [hu] at hu'
  subst hu'
  have hub := hv.2.2 u hum
  rcases (pass_density hpos hs (by omega) (by omega)).mp h with h0 | h0
  · left
    subst h0
    have hall : ∀ x ∈ xs, x = 0 := by
      intro x hx
      have := hul x hx
      omega
    match xs, hv with
    | [], hv => exact absurd rfl hv.1
    | [x], _ => rw [hall x (by simp)]
    | x :: y :: t, hv =>
      have h1 := hall x (by simp)
      have h2 := hall y (by simp)
      have := (List.pairwise_cons.mp hv.2.1).1 y (by simp)
      omega
  · by_cases hu0 : u = 0
    · subst hu0
      right
      rw [Nat.mul_zero]
      exact Nat.mul_pos hpos dunit_pos
    · right
      refine Nat.lt_of_not_le (fun hle => ?_)
      have h1 := rnd_mono (p := 53) (a := xs.length * dunit) (c := u) (b := v * u) (d := u) (by decide)
        (by omega) (by omega) (Nat.mul_le_mul_right u hle)
      rw [rnd_fix hd (by omega)] at h1
      omega

/-- C63: and conversely, a list passes if some `double` is above the threshold and not above its length
over its largest element: a list is dropped wrongly only if there is no `double` between. -/
theorem C63_density_complete (hv : Valid xs) (hu : xs.getLast?.getD 0 = u) (hw : Fits 53 w)
    (hvw : v < w) (h : w * u ≤ xs.length * dunit) :
    pass { denser := density_test (.fin v), size := size } xs.length u = true := by
  have hpos := List.length_pos_iff.mpr hv.1
  have hlen : xs.length ≤ 4294901760 := sorted_length_le' hv.2.1 hv.2.2
  obtain ⟨u', hu', hum, hul⟩ := last_facts hv
  rw [hu] at hu'
  subst hu'
  have hub := hv.2.2 u hum
  by_cases hs : xs.length ≤ size
  · rw [pass_density hpos hs (by omega) (by omega)]
    by_cases hu0 : u = 0
    · exact Or.inl hu0
    · right
      refine Nat.lt_of_lt_of_le hvw ?_
      have h1 := rnd_mono (p := 53) (a := w * u) (c := u) (b := xs.length * dunit) (d := u) (by decide)
        (by omega) (by omega) (Nat.mul_le_mul_right u h)
      rwa [rnd_fix hw (by omega)] at h1
  · unfold pass
    simp [show xs.length > size by omega]

/-- C63: a threshold that is negative or not a number is no threshold; with an infinite one no list
passes for its density. -/
theorem C63_density_special {n : Nat} :
    pass { denser := density_test .neg, size := size } n u = decide (size < n) ∧
    pass { denser := density_test .nan, size := size } n u = decide (size < n) ∧
    pass { denser := density_test .inf, size := size } n u = decide (size < n) := by
  unfold pass density_test
  refine ⟨?_, ?_, ?_⟩ <;> simp

/-- C63: a list that is dropped wrongly: the density of `[3]` is 1/3, which is above the `double` that
`0.3333333333333333` stands for, and the quotient is rounded to that `double`. -/
theorem C63_density_tie :
    Fits 53 (dlit 3333333333333333 10000000000000000) ∧
    dlit 3333333333333333 10000000000000000 * 3 < 1 * dunit ∧
    pass { denser := density_test (.fin (dlit 3333333333333333 10000000000000000)), size := 1 } 1 3
      = false := by
  refine ⟨fits_rnd (by decide) (by decide), by decide +kernel, by decide +kernel⟩

/-! ## The averages of the statistics -/

/-- C63: for counters that are not too large the integer part of the quotient of two counters in
floating point is the integer quotient. -/
theorem C63_average {num den : Nat} (h : num + den ≤ 2 ^ 52) (hd : den ≠ 0) :
    quotient64 num den = .ok (num / den) := by
  have hd0 : 0 < den := Nat.pos_of_ne_zero hd
  have h53 : (2 : Nat) ^ 53 = 2 * 2 ^ 52 := by decide
  unfold quotient64
  rw [if_neg hd, ddiv_exact (by omega) (by omega) hd0]
  congr 1
  unfold dtoNat
  have hq : num / den ≤ num := Nat.div_le_self _ _
  have e := Nat.div_add_mod num den
  have hr := Nat.mod_lt num hd0
  have hlow : num / den * dunit ≤ rnd 53 (num * dunit) den := by
    have h1 := rnd_mono (p := 53) (a := num / den * dunit) (c := 1) (b := num * dunit) (d := den)
      (by decide) (by decide) hd0 (by
        rw [Nat.mul_one, Nat.mul_assoc, Nat.mul_comm dunit den, ← Nat.mul_assoc]
        exact Nat.mul_le_mul_right _ (Nat.div_mul_le_self num den))
    have h2 := rnd_fix (p := 53) (fits_nat (n := num / den) (by omega)) (by decide : 0 < 1)
    rw [Nat.mul_one] at h2
    rwa [h2] at h1
  -- a value with 53 bits between the quotient and the next integer
  obtain ⟨j, hj1, hj2⟩ : ∃ j, den ≤ 2 ^ j ∧ 2 ^ j ≤ 2 * den := by
    refine ⟨Nat.log2 den + 1, Nat.le_of_lt Nat.lt_log2_self, ?_⟩
    rw [Nat.pow_succ]
    have := Nat.log2_self_le hd
    omega
  have hjj : (num / den + 1) * 2 ^ j ≤ 2 ^ 53 := by
    calc (num / den + 1) * 2 ^ j ≤ (num / den + 1) * (2 * den) := Nat.mul_le_mul_left _ hj2
      _ = 2 * (den * (num / den) + den) := by
        rw [Nat.mul_comm (num / den + 1), Nat.mul_assoc, Nat.mul_add, Nat.mul_one]
      _ ≤ 2 ^ 53 := by omega
  have hj3 : j ≤ 1074 := by
    have : 2 ^ j ≤ 2 ^ 53 := Nat.le_trans (Nat.le_mul_of_pos_left _ (Nat.succ_pos _)) hjj
    have := (Nat.pow_le_pow_iff_right (by decide : 1 < 2)).mp this
    omega
  have hdu : dunit = 2 ^ j * 2 ^ (1074 - j) := by
    rw [← Nat.pow_add]; unfold dunit; congr 1; omega
  have hw : Fits 53 (((num / den + 1) * 2 ^ j - 1) * 2 ^ (1074 - j)) := by
    refine (fits_small ?_).mul_pow _
    have := Nat.two_pow_pos j
    have : 0 < (num / den + 1) * 2 ^ j := Nat.mul_pos (Nat.succ_pos _) this
    omega
  have hup : rnd 53 (num * dunit) den ≤ ((num / den + 1) * 2 ^ j - 1) * 2 ^ (1074 - j) := by
    have h1 := rnd_mono (p := 53) (a := num * dunit) (c := den)
      (b := ((num / den + 1) * 2 ^ j - 1) * 2 ^ (1074 - j)) (d := 1) (by decide) hd0 (by decide) (by
        rw [Nat.mul_one, hdu, ← Nat.mul_assoc, Nat.mul_assoc _ (2 ^ (1074 - j)) den,
          Nat.mul_comm (2 ^ (1074 - j)) den, ← Nat.mul_assoc]
        refine Nat.mul_le_mul_right _ ?_
        rw [Nat.sub_mul, Nat.one_mul]
        have e2 : (num / den + 1) * 2 ^ j * den = (den * (num / den) + den) * 2 ^ j := by
          rw [Nat.mul_assoc, Nat.mul_comm (2 ^ j) den, ← Nat.mul_assoc, Nat.add_mul, Nat.one_mul,
            Nat.mul_comm (num / den) den]
        rw [e2]
        have e3 : (num + 1) * 2 ^ j ≤ (den * (num / den) + den) * 2 ^ j :=
          Nat.mul_le_mul_right _ (by omega)
        rw [Nat.add_mul, Nat.one_mul] at e3
        omega)
    have h2 := rnd_fix hw (by decide : 0 < 1)
    rw [Nat.mul_one] at h2
    rwa [h2] at h1
  have hlt : ((num / den + 1) * 2 ^ j - 1) * 2 ^ (1074 - j) < (num / den + 1) * dunit := by
    rw [hdu, ← Nat.mul_assoc]
    refine Nat.mul_lt_mul_of_pos_right ?_ (Nat.two_pow_pos _)
    have : 0 < (num / den + 1) * 2 ^ j := Nat.mul_pos (Nat.succ_pos _) (Nat.two_pow_pos j)
    omega
  refine Nat.le_antisymm ?_ ?_
  · exact Nat.le_of_lt_succ ((Nat.div_lt_iff_lt_mul dunit_pos).mpr (Nat.lt_of_le_of_lt hup hlt))
  · exact (Nat.le_div_iff_mul_le dunit_pos).mpr hlow

/-- the bound cannot be dropped: the conversion of the counters to `double` is not exact -/
theorem C63_average_large : quotient64 (2 ^ 53 + 1) 1 = .ok (2 ^ 53) ∧ (2 ^ 53 + 1) / 1 ≠ 2 ^ 53 := by
  constructor
  · decide +kernel
  · decide

theorem forRange_same {σ : Type} {f g : Nat → σ → Res σ} : ∀ (n i : Nat) (s : σ),
    (∀ j s, i ≤ j → j < i + n → f j s = g j s) → forRange f n i s = forRange g n i s
  | 0, _, _, _ => rfl
  | n + 1, i, s, h => by
    unfold forRange
    rw [h i s (Nat.le_refl _) (by omega)]
    congr 1
    funext s'
    exact forRange_same n (i + 1) s' (fun j s hj hj' => h j s (by omega) (by omega))

theorem print64_same {st : Stats} {nb ni : Nat → Nat} {log : Nat → Nat → Nat}
    (hnb : ∀ b, b ≤ 256 → st.num_blocks_in_chunks[b]? = some (nb b))
    (hni : ∀ b, b ≤ 256 → st.num_integers[b]? = some (ni b))
    (h : ∀ b, b ≤ 256 → ni b + nb b ≤ 2 ^ 52) : st.print64 log = st.print log := by
  refine forRange_same 256 1 [] (fun j s h1 h2 => ?_)
  have hj : j ≤ 256 := by omega
  have e : quotient64 (ni j) (nb j) = ratio64 (ni j) (nb j) := by
    by_cases hz : nb j = 0
    · unfold quotient64 ratio64
      rw [if_pos hz, if_pos hz]
    · rw [C63_average (h j hj) hz]
      unfold ratio64
      rw [if_neg hz]
  simp only [rdv_of (hni j hj), rdv_of (hnb j hj), ok_bind, e]

theorem sum_filter_le (f : Nat → Nat) (q : Nat → Bool) (L : List Nat) :
    ((L.filter q).map f).sum ≤ (L.map f).sum := by
  induction L with
  | nil => simp
  | cons a L ih =>
    rw [List.filter_cons, List.map_cons, List.sum_cons]
    split
    · rw [List.map_cons, List.sum_cons]; omega
    · omega

theorem integersWith_le {xs : List Nat} (hv : Valid xs) (b : Nat) : integersWith xs b ≤ xs.length := by
  rw [← sum_sliceCard hv]
  unfold integersWith
  exact sum_filter_le _ _ _

/-- C63: printing the statistics of an index with at most `2^51` elements gives the same in floating
point as with exact quotients (C46). -/
theorem C63_print {params : Params} {univ : Nat} {lists : List (List Nat)} {dbg : Bool}
    {offs : List Nat} {seqs : List UInt8} {st : Stats} {log : Nat → Nat → Nat} (hg : GoodCollection params univ lists)
    (hb : build_index dbg params (collection univ lists) = .ok (offs, seqs, st))
    (hn : ((keptLists params lists).map List.length).sum ≤ 2 ^ 51) :
    st.print64 log = st.print log := by
  obtain ⟨h1, h2, -⟩ := C36_collection hg hb
  refine print64_same h1 h2 (fun b hb => ?_)
  have a1 : ((keptLists params lists).map (integersWith · b)).sum
      ≤ ((keptLists params lists).map List.length).sum :=
    lists_sum_le (fun xs hx => integersWith_le (keptLists_valid hg xs hx) b)
  have a2 : ((keptLists params lists).map (slicesWith · b)).sum
      ≤ ((keptLists params lists).map (integersWith · b)).sum :=
    lists_sum_le (fun _ _ => slices_le_integers b)
  have : (2 : Nat) ^ 52 = 2 * 2 ^ 51 := by decide
  omega

/-- C63: the same for one sequence, without a bound. -/
theorem C63_print_sequence {dbg : Bool} {st : Stats} {bytes : List UInt8} {log : Nat → Nat → Nat}
    (hv : Valid xs) (hb : build_sequence dbg xs [] = .ok (st, bytes)) :
    st.print64 log = st.print log := by
  obtain ⟨h1, h2, -⟩ := C36_histograms hv hb
  refine print64_same h1 h2 (fun b hb => ?_)
  have a1 := integersWith_le hv b
  have a2 := slices_le_integers (xs := xs) b
  have a3 : xs.length ≤ 4294901760 := sorted_length_le' hv.2.1 hv.2.2
  have : (2 : Nat) ^ 52 = 4503599627370496 := by decide
  omega

/-! ## The operations -/

/-- C63: each operation has a result of its format: 53 significant bits in `double`, 24 in `float`. -/
theorem C63_formats (n x y a b : Nat) (hy : 0 < y) (hb : 0 < b) :
    Fits 53 (dofNat n) ∧ Fits 53 (ddiv x y) ∧ Fits 53 (dlit a b) ∧
    Fits 24 (fofNat n) ∧ Fits 24 (fdiv x y) ∧ Fits 24 (fadd x y) ∧ Fits 24 (fofDouble x) :=
  ⟨fits_rnd (by decide) (by decide), fits_rnd (by decide) hy, fits_rnd (by decide) hb,
    fits_rnd (by decide) (by decide), fits_rnd (by decide) hy, fits_rnd (by decide) (by decide),
    fits_rnd (by decide) (Nat.two_pow_pos _)⟩

/-- C63: … and if the exact result has that many bits, then it is the result. -/
theorem C63_exact {v : Nat} :
    (∀ n, Fits 53 v → n * dunit = v → dofNat n = v) ∧
    (∀ x y, Fits 53 v → 0 < y → x * dunit = v * y → ddiv x y = v) ∧
    (∀ a b, Fits 53 v → 0 < b → a * dunit = v * b → dlit a b = v) ∧
    (∀ n, Fits 24 v → n * funit = v → fofNat n = v) ∧
    (∀ x y, Fits 24 v → 0 < y → x * funit = v * y → fdiv x y = v) ∧
    (∀ x y, Fits 24 v → x + y = v → fadd x y = v) ∧
    (∀ x, Fits 24 v → x = v * 2 ^ 925 → fofDouble x = v) := by
  have one : ∀ {p w}, Fits p w → rnd p w 1 = w := fun h => by
    have := rnd_fix h (Nat.zero_lt_one)
    rwa [Nat.mul_one] at this
  refine ⟨?_, ?_, ?_, ?_, ?_, ?_, ?_⟩
  · intro n h e; unfold dofNat; rw [e]; exact one h
  · intro x y h hy e; unfold ddiv; rw [e]; exact rnd_fix h hy
  · intro x y h hy e; unfold dlit; rw [e]; exact rnd_fix h hy
  · intro n h e; unfold fofNat; rw [e]; exact one h
  · intro x y h hy e; unfold fdiv; rw [e]; exact rnd_fix h hy
  · intro x y h e; unfold fadd; rw [e]; exact one h
  · intro x h e; unfold fofDouble; rw [e]; exact rnd_fix h (Nat.two_pow_pos _)

/-- 2^24 - 1 and 1 in units: their sum needs one bit only; 2^24 + 1 needs 25 bits and is rounded. -/
example : fadd 16777214 1 = 16777215 ∧ fadd 16777215 1 = 16777216 ∧ fadd 16777216 1 = 16777216 ∧
    fadd 16777216 3 = 16777220 := by decide

/-! ## The events -/

/-- the `float` that `0.3` is stored as, and one half -/
def f03 : Nat := 10066330 * 2 ^ 124
def f05 : Nat := 2 ^ 148

theorem events_sums : fofDouble (dlit 3 10) = f03 ∧ fadd f03 (fofDouble (dlit 2 10)) = f05 ∧
    fadd f05 (fofDouble (dlit 5 10)) = funit := by
  refine ⟨by decide +kernel, by decide +kernel, by decide +kernel⟩

/-- C63: `gen_event` is defined for each `float` between 0 and 1, and no assertion fails: the rounded
sums of the probabilities are 0.5 and 1 exactly, so that the loop ends before the end of the events. -/
theorem C63_event {p : Nat} (dbg : Bool) (hp : p ≤ funit) :
    gen_event dbg clustered_events p
      = .ok (if p ≤ f03 then 0 else if p ≤ f05 then 1 else 2) := by
  obtain ⟨e1, e2, e3⟩ := events_sums
  have hca : cassert dbg (decide (p ≤ funit)) = .ok () := by
    simp [cassert, hp]
  unfold gen_event clustered_events
  rw [e1]
  simp only [hca, ok_bind, List.getElem?_cons_zero, List.length_cons, List.length_nil]
  by_cases h1 : p ≤ f03
  · rw [gen_event_loop, if_neg (by omega)]
    simp [cassert, h1]
  · rw [gen_event_loop, if_pos (by omega)]
    simp only [List.getElem?_cons_succ, List.getElem?_cons_zero, e2]
    by_cases h2 : p ≤ f05
    · rw [gen_event_loop, if_neg (by omega)]
      simp [cassert, h1, h2]
    · rw [gen_event_loop, if_pos (by omega)]
      simp only [List.getElem?_cons_succ, List.getElem?_cons_zero, e3]
      rw [gen_event_loop, if_neg (by omega)]
      simp [cassert, h1, h2]

theorem fofNat_mono {a b : Nat} (h : a ≤ b) : fofNat a ≤ fofNat b :=
  rnd_mono (by decide) (by decide) (by decide) (by
    rw [Nat.mul_one, Nat.mul_one]; exact Nat.mul_le_mul_right _ h)

theorem fofNat_pos {n : Nat} (h : 0 < n) : 0 < fofNat n :=
  Nat.lt_of_lt_of_le (by decide +kernel : 0 < fofNat 1) (fofNat_mono h)

/-- C63: the quotient of the number drawn and `RAND_MAX` is between 0 and 1 also when it is rounded -/
theorem C63_rand_float {rand_max r : Nat} (h0 : 0 < rand_max) (h : r ≤ rand_max) :
    rand_float rand_max r ≤ funit := by
  have hy := fofNat_pos h0
  have h1 : rand_float rand_max r ≤ rnd 24 (funit * fofNat rand_max) (fofNat rand_max) :=
    rnd_mono (by decide) hy hy (Nat.mul_le_mul_right _ (by
      rw [Nat.mul_comm]; exact Nat.mul_le_mul_left _ (fofNat_mono h)))
  rwa [rnd_fix ⟨1, 149, by rw [Nat.one_mul]; rfl, by decide⟩ hy] at h1

/-- the event for a number drawn -/
def eventOf (rand_max r : Nat) : Nat :=
  if rand_float rand_max r ≤ f03 then 0 else if rand_float rand_max r ≤ f05 then 1 else 2

theorem rand_float_mono {rand_max a b : Nat} (h0 : 0 < rand_max) (h : a ≤ b) :
    rand_float rand_max a ≤ rand_float rand_max b :=
  rnd_mono (by decide) (fofNat_pos h0) (fofNat_pos h0)
    (Nat.mul_le_mul_right _ (Nat.mul_le_mul_right _ (fofNat_mono h)))

/-- C63: the events with the `RAND_MAX` of glibc: of the 2147483648 numbers 644245153 skip the slice
and 429496736 include all of it. -/
theorem C63_events_glibc (r : Nat) :
    (eventOf 2147483647 r = 0 ↔ r ≤ 644245152) ∧
    (eventOf 2147483647 r = 1 ↔ 644245152 < r ∧ r ≤ 1073741888) ∧
    (eventOf 2147483647 r = 2 ↔ 1073741888 < r) := by
  have m := @rand_float_mono 2147483647
  have a1 : rand_float 2147483647 644245152 ≤ f03 := by decide +kernel
  have a2 : f03 < rand_float 2147483647 644245153 := by decide +kernel
  have b1 : rand_float 2147483647 1073741888 ≤ f05 := by decide +kernel
  have b2 : f05 < rand_float 2147483647 1073741889 := by decide +kernel
  have k1 : rand_float 2147483647 r ≤ f03 ↔ r ≤ 644245152 := by
    constructor
    · intro h
      refine Nat.le_of_not_lt (fun hlt => ?_)
      have := m (a := 644245153) (b := r) (by decide) hlt
      omega
    · exact fun h => Nat.le_trans (m (by decide) h) a1
  have k2 : rand_float 2147483647 r ≤ f05 ↔ r ≤ 1073741888 := by
    constructor
    · intro h
      refine Nat.le_of_not_lt (fun hlt => ?_)
      have := m (a := 1073741889) (b := r) (by decide) hlt
      omega
    · exact fun h => Nat.le_trans (m (by decide) h) b1
  unfold eventOf
  simp only [k1, k2]
  refine ⟨?_, ?_, ?_⟩ <;> (split <;> try split) <;> simp <;> omega

/-- what `gen_event` needs of `rand()` -/
def RandOk (rand_max : Nat) (r : Nat → Nat → Nat) : Prop := ∀ i j, r i j ≤ rand_max

theorem gen_slices_rand_eq {dbg : Bool} {rand_max univ : Nat} {r : Nat → Nat} (h0 : 0 < rand_max)
    (hr : ∀ j, r j ≤ rand_max) {some_of : Nat → List Nat} :
    ∀ (fuel j left right : Nat) (list : List Nat),
      gen_slices_rand dbg rand_max univ r some_of fuel j left right list
        = gen_slices univ (fun j => eventOf rand_max (r j)) some_of fuel j left right list
  | 0, _, _, _, _ => rfl
  | f + 1, j, left, right, list => by
    unfold gen_slices_rand gen_slices
    by_cases hl : left < univ
    · rw [if_pos hl, if_pos hl]
      rw [C63_event dbg (C63_rand_float h0 (hr j)), ok_bind]
      have e : (if rand_float rand_max (r j) ≤ f03 then 0
          else if rand_float rand_max (r j) ≤ f05 then 1 else 2) = eventOf rand_max (r j) := rfl
      simp only [e]
      have h3 : eventOf rand_max (r j) ≤ 2 := by
        unfold eventOf; split <;> try split
        all_goals omega
      by_cases c0 : eventOf rand_max (r j) = 0
      · simp only [c0, if_true]
        exact gen_slices_rand_eq h0 hr f _ _ _ _
      · by_cases c1 : eventOf rand_max (r j) = 1
        · simp only [c1, if_true, Nat.one_ne_zero, if_false]
          exact gen_slices_rand_eq h0 hr f _ _ _ _
        · have c2 : eventOf rand_max (r j) = 2 := by omega
          simp only [c2, if_true]
          rw [if_neg (by decide), if_neg (by decide), if_neg (by decide), if_neg (by decide)]
          exact gen_slices_rand_eq h0 hr f _ _ _ _
    · rw [if_neg hl, if_neg hl]

theorem gen_lists_rand_eq {dbg : Bool} {rand_max univ fuel : Nat} {r : Nat → Nat → Nat}
    (h0 : 0 < rand_max) (hr : RandOk rand_max r) {some_of : Nat → Nat → List Nat} : ∀ (n i : Nat),
      gen_lists_rand dbg rand_max univ r some_of fuel n i
        = gen_lists univ (fun i j => eventOf rand_max (r i j)) some_of fuel n i
  | 0, _ => rfl
  | n + 1, i => by
    unfold gen_lists_rand gen_lists
    rw [gen_slices_rand_eq h0 (hr i), gen_lists_rand_eq h0 hr n (i + 1)]

/-- C63: `gen_clustered_data --binary` for any numbers that `rand()` may return: it never reads behind
the events nor reaches the unreachable case, and writes a good collection; the elements of list `i` are
those of the slices that are included, and the drawn ones. -/
theorem C63_clustered {sort : List Nat → List Nat} {params : Params} {univ rand_max num : Nat}
    {dbg : Bool} {r : Nat → Nat → Nat} {some_of : Nat → Nat → List Nat} (hsort : SortNat sort)
    (hu : univ < 4294901760) (h0 : 0 < rand_max) (hr : RandOk rand_max r)
    (hd : DrawsOk univ some_of) :
    ∃ lists, (∃ fuel, gen_clustered_rand dbg sort rand_max num univ r some_of fuel
        = .ok (collection univ lists)) ∧
      GoodCollection params univ lists ∧ lists.length = num ∧
      ∀ i xs, lists[i]? = some xs → xs.Pairwise (· < ·) ∧
        ∀ v, v ∈ xs ↔ Chosen univ (fun j => eventOf rand_max (r i j)) (some_of i) 65536 v := by
  obtain ⟨lists, ⟨fuel, e⟩, h1, h2, h3⟩ := C47_clustered (params := params) (num := num)
    (code := fun i j => eventOf rand_max (r i j)) hsort hu hd
  refine ⟨lists, ⟨fuel, ?_⟩, h1, h2, h3⟩
  rw [← e]
  unfold gen_clustered_rand gen_clustered
  rw [gen_lists_rand_eq h0 hr]

/-! ## Concrete cases -/

/-- the program `gen_clustered_data` on a universe with two slices: the first one is included as a
whole, of the second one three elements are drawn -/
example : RandOk 2147483647 (fun _ j => if j = 0 then 1000000000 else 2000000000) ∧
    eventOf 2147483647 1000000000 = 1 ∧ eventOf 2147483647 2000000000 = 2 ∧
    DrawsOk 70000 (fun _ j => if j = 1 then [66000, 65536, 66000] else []) := by
  refine ⟨?_, ?_, ?_, ?_⟩
  · intro i j
    simp only
    split <;> decide
  · exact (C63_events_glibc _).2.1.mpr (by decide)
  · exact (C63_events_glibc _).2.2.mpr (by decide)
  · intro i j x hx
    simp only at hx
    split at hx
    · rename_i h; subst h
      simp only [List.mem_cons, List.not_mem_nil, or_false] at hx
      omega
    · simp at hx

/-- with the density `0.5` the list `[1, 2, 3]` is kept, and `[2, 5, 10]` is not -/
example : pass { denser := density_test (.fin (dlit 1 2)), size := 3 } 3 3 = true ∧
    pass { denser := density_test (.fin (dlit 1 2)), size := 3 } 3 10 = false ∧
    Fits 53 (dlit 1 2) ∧ Fits 53 (dlit 3 4) ∧ dlit 1 2 < dlit 3 4 ∧ dlit 3 4 * 3 ≤ 3 * dunit := by
  refine ⟨by decide +kernel, by decide +kernel, fits_rnd (by decide) (by decide),
    fits_rnd (by decide) (by decide), by decide +kernel, by decide +kernel⟩

/-- a rounded quotient that is below the exact one, and one that is above -/
example : ddiv (dofNat 1) (dofNat 3) * 3 < dunit ∧ dunit < ddiv (dofNat 1) (dofNat 10) * 10 := by
  constructor <;> decide +kernel

-- 1/3 with 4 bits after scaling by 64: 21.33 is between 20 and 22, which is nearer
example : rnd 4 64 3 = 22 ∧ Fits 4 (rnd 4 64 3) ∧ (22 * 3 - 64) + (64 - 22 * 3) ≤ (20 * 3 - 64) + (64 - 20 * 3) := by
  have h : rnd 4 64 3 = 22 := by decide +kernel
  have h2 := C63_round_nearest (p := 4) (num := 64) (den := 3) (w := 20) (by omega) (by omega)
    ⟨10, 1, by decide, by decide⟩
  rw [h] at h2
  exact ⟨h, C63_round_fits (by omega) (by omega), h2⟩

example : rnd 4 64 3 ≤ rnd 4 45 2 := C63_round_mono (by omega) (by omega) (by omega) (by decide)

end Sliced
