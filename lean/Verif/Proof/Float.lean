import Verif.Model.Float
import Verif.Proof.Basic
/-! # Rounding: monotone, exact where it can be, and to the nearest value -/
namespace Sliced

theorem halfEven_bounds (a s : Nat) : a / s ≤ halfEven a s ∧ halfEven a s ≤ a / s + 1 := by
  unfold halfEven
  have : a / s % 2 < 2 := Nat.mod_lt _ (by decide)
  split
  · omega
  · split <;> omega

theorem halfEven_mono {a s b t : Nat} (hs : 0 < s) (ht : 0 < t) (h : a * t ≤ b * s) :
    halfEven a s ≤ halfEven b t := by
  have ea := Nat.div_add_mod a s
  have eb := Nat.div_add_mod b t
  have ra := Nat.mod_lt a hs
  have rb := Nat.mod_lt b ht
  have hm : a / s ≤ b / t := by
    rw [Nat.le_div_iff_mul_le ht]
    refine Nat.le_of_mul_le_mul_right (c := s) ?_ hs
    calc a / s * t * s = a / s * s * t := by rw [Nat.mul_assoc, Nat.mul_comm t s, ← Nat.mul_assoc]
      _ ≤ a * t := Nat.mul_le_mul_right _ (Nat.div_mul_le_self a s)
      _ ≤ b * s := h
  rcases Nat.lt_or_ge (a / s) (b / t) with hlt | hge
  · have h1 := halfEven_bounds a s
    have h2 := halfEven_bounds b t
    omega
  unfold halfEven
  generalize hA : a / s = A at *
  generalize hB : b / t = B at *
  generalize a % s = r at *
  generalize b % t = q at *
  · obtain rfl : A = B := by omega
    have hrq : r * t ≤ q * s := by
      rw [← ea, ← eb, Nat.add_mul, Nat.add_mul] at h
      have : s * A * t = t * A * s := by
        rw [Nat.mul_comm s A, Nat.mul_comm t A, Nat.mul_assoc, Nat.mul_assoc, Nat.mul_comm s t]
      omega
    have k1 : s < 2 * r → t < 2 * q := by
      intro h1
      refine Nat.lt_of_mul_lt_mul_right (a := s) ?_
      have := Nat.mul_lt_mul_of_pos_right h1 ht
      rw [Nat.mul_comm t s, Nat.mul_assoc]
      rw [Nat.mul_assoc] at this
      omega
    have k2 : s ≤ 2 * r → t ≤ 2 * q := by
      intro h1
      refine Nat.le_of_mul_le_mul_right (c := s) ?_ hs
      have := Nat.mul_le_mul_right t h1
      rw [Nat.mul_comm t s, Nat.mul_assoc]
      rw [Nat.mul_assoc] at this
      omega
    split <;> split <;> (try split) <;> (try split) <;> omega

theorem halfEven_one (c : Nat) : halfEven c 1 = c := by
  unfold halfEven
  rw [Nat.mod_one, Nat.div_one, if_pos (by decide)]

theorem halfEven_le {a s c : Nat} (hs : 0 < s) (h : a ≤ c * s) : halfEven a s ≤ c := by
  have := halfEven_mono (b := c) (t := 1) hs (by decide) (by rw [Nat.mul_one]; exact h)
  rwa [halfEven_one] at this

theorem le_halfEven {a s c : Nat} (hs : 0 < s) (h : c * s ≤ a) : c ≤ halfEven a s := by
  have := halfEven_mono (a := c) (s := 1) (by decide) hs (by rw [Nat.mul_one]; exact h)
  rwa [halfEven_one] at this

theorem lt_two_pow_lastBit (p f : Nat) : f < 2 ^ (p + lastBit p f) := by
  refine Nat.lt_of_lt_of_le (Nat.lt_log2_self (n := f)) (Nat.pow_le_pow_right (by decide) ?_)
  unfold lastBit; omega

theorem two_pow_lastBit_le {p f : Nat} (h : 0 < lastBit p f) (hp : 0 < p) :
    2 ^ (p - 1 + lastBit p f) ≤ f := by
  have hf : f ≠ 0 := by
    rintro rfl
    unfold lastBit at h
    simp at h; omega
  refine Nat.le_trans (Nat.pow_le_pow_right (by decide) ?_) (Nat.log2_self_le hf)
  unfold lastBit; unfold lastBit at h; omega

theorem lastBit_mono {p f g : Nat} (h : f ≤ g) : lastBit p f ≤ lastBit p g := by
  unfold lastBit
  have : Nat.log2 f ≤ Nat.log2 g := by
    by_cases hf : f = 0
    · subst hf; simp
    · exact (Nat.le_log2 (by omega)).mpr (Nat.le_trans (Nat.log2_self_le hf) h)
  omega

theorem rnd_ge {p num den : Nat} (hp : 0 < p) (hd : 0 < den)
    (h : 0 < lastBit p (num / den)) : 2 ^ (p - 1 + lastBit p (num / den)) ≤ rnd p num den := by
  have h1 := two_pow_lastBit_le h hp
  unfold rnd
  rw [Nat.pow_add]
  refine Nat.mul_le_mul_right _ (le_halfEven (Nat.mul_pos hd (Nat.two_pow_pos _)) ?_)
  rw [Nat.pow_add] at h1
  calc 2 ^ (p - 1) * (den * 2 ^ lastBit p (num / den))
      = 2 ^ (p - 1) * 2 ^ lastBit p (num / den) * den := by
        rw [Nat.mul_comm den, Nat.mul_assoc]
    _ ≤ num / den * den := Nat.mul_le_mul_right _ h1
    _ ≤ num := Nat.div_mul_le_self _ _

theorem halfEven_le_pow {p num den : Nat} (hd : 0 < den) :
    halfEven num (den * 2 ^ lastBit p (num / den)) ≤ 2 ^ p := by
  have h1 := lt_two_pow_lastBit p (num / den)
  refine halfEven_le (Nat.mul_pos hd (Nat.two_pow_pos _)) ?_
  have h2 : num < (num / den + 1) * den := by
    have := Nat.div_add_mod num den
    have := Nat.mod_lt num hd
    rw [Nat.add_mul, Nat.one_mul, Nat.mul_comm (num / den)]; omega
  calc num ≤ (num / den + 1) * den := by omega
    _ ≤ 2 ^ (p + lastBit p (num / den)) * den := Nat.mul_le_mul_right _ h1
    _ = 2 ^ p * (den * 2 ^ lastBit p (num / den)) := by
      rw [Nat.pow_add, Nat.mul_assoc, Nat.mul_comm den]

theorem rnd_mono {p a c b d : Nat} (hp : 0 < p) (hc : 0 < c) (hd : 0 < d) (h : a * d ≤ b * c) :
    rnd p a c ≤ rnd p b d := by
  have hf : a / c ≤ b / d := by
    rw [Nat.le_div_iff_mul_le hd]
    refine Nat.le_of_mul_le_mul_right (c := c) ?_ hc
    calc a / c * d * c = a / c * c * d := by rw [Nat.mul_assoc, Nat.mul_comm d c, ← Nat.mul_assoc]
      _ ≤ a * d := Nat.mul_le_mul_right _ (Nat.div_mul_le_self a c)
      _ ≤ b * c := h
  rcases Nat.lt_or_ge (lastBit p (a / c)) (lastBit p (b / d)) with hlt | hge
  · refine Nat.le_trans ?_ (rnd_ge hp hd (by omega))
    refine Nat.le_trans (m := 2 ^ (p + lastBit p (a / c))) ?_ (Nat.pow_le_pow_right (by decide) (by omega))
    unfold rnd
    rw [Nat.pow_add]
    exact Nat.mul_le_mul_right _ (halfEven_le_pow hc)
  · have hk : lastBit p (a / c) = lastBit p (b / d) := Nat.le_antisymm (lastBit_mono hf) hge
    unfold rnd
    rw [hk]
    refine Nat.mul_le_mul_right _ (halfEven_mono (Nat.mul_pos hc (Nat.two_pow_pos _))
      (Nat.mul_pos hd (Nat.two_pow_pos _)) ?_)
    rw [← Nat.mul_assoc, ← Nat.mul_assoc]
    exact Nat.mul_le_mul_right _ h

/-- a value that has `p` significant bits -/
def Fits (p v : Nat) : Prop := ∃ M k, v = M * 2 ^ k ∧ M < 2 ^ p

theorem Fits.lastBit_dvd {p v : Nat} (h : Fits p v) : 2 ^ lastBit p v ∣ v := by
  obtain ⟨M, k, rfl, hM⟩ := h
  by_cases h0 : M * 2 ^ k = 0
  · rw [h0]; exact Nat.dvd_zero _
  · have hlt : M * 2 ^ k < 2 ^ (p + k) := by
      rw [Nat.pow_add]; exact Nat.mul_lt_mul_of_pos_right hM (Nat.two_pow_pos _)
    have hl := (Nat.log2_lt h0).mpr hlt
    have : lastBit p (M * 2 ^ k) ≤ k := by unfold lastBit; omega
    exact Nat.dvd_trans (Nat.pow_dvd_pow 2 this) (Nat.dvd_mul_left _ _)

theorem rnd_fix {p v den : Nat} (h : Fits p v) (hd : 0 < den) : rnd p (v * den) den = v := by
  obtain ⟨c, hc⟩ := h.lastBit_dvd
  unfold rnd
  rw [Nat.mul_div_cancel _ hd]
  have hk : 0 < den * 2 ^ lastBit p v := Nat.mul_pos hd (Nat.two_pow_pos _)
  generalize lastBit p v = k at *
  subst hc
  have e : 2 ^ k * c * den = c * (den * 2 ^ k) := by
    rw [Nat.mul_comm (2 ^ k) c, Nat.mul_assoc, Nat.mul_comm (2 ^ k) den]
  rw [e, Nat.mul_comm (2 ^ k) c]
  congr 1
  exact Nat.le_antisymm (halfEven_le hk (Nat.le_refl _)) (le_halfEven hk (Nat.le_refl _))

theorem fits_rnd {p num den : Nat} (hp : 0 < p) (hd : 0 < den) : Fits p (rnd p num den) := by
  have h := halfEven_le_pow (p := p) (num := num) hd
  rcases Nat.lt_or_eq_of_le h with h | h
  · exact ⟨_, _, rfl, h⟩
  · refine ⟨2 ^ (p - 1), 1 + lastBit p (num / den), ?_, Nat.pow_lt_pow_right (by decide) (by omega)⟩
    unfold rnd
    rw [h, ← Nat.pow_add, ← Nat.pow_add]
    congr 1; omega

theorem fits_small {p v : Nat} (h : v < 2 ^ p) : Fits p v := ⟨v, 0, by simp, h⟩

theorem Fits.mul_pow {p v : Nat} (h : Fits p v) (j : Nat) : Fits p (v * 2 ^ j) := by
  obtain ⟨M, k, rfl, hM⟩ := h
  exact ⟨M, k + j, by rw [Nat.pow_add, Nat.mul_assoc], hM⟩

/-- there is no value with `p` significant bits strictly between two neighbours -/
theorem Fits.grid {p f w : Nat} (hp : 0 < p) (hw : Fits p w)
    (h : f / 2 ^ lastBit p f * 2 ^ lastBit p f < w) :
    (f / 2 ^ lastBit p f + 1) * 2 ^ lastBit p f ≤ w := by
  by_cases h0 : lastBit p f = 0
  · rw [h0] at h ⊢; simp only [Nat.pow_zero, Nat.div_one, Nat.mul_one] at h ⊢; omega
  · have hf := two_pow_lastBit_le (p := p) (f := f) (by omega) hp
    have hd : 2 ^ lastBit p f ∣ w := by
      obtain ⟨M, j, rfl, hM⟩ := hw
      have h1 : 2 ^ (p - 1 + lastBit p f) ≤ f / 2 ^ lastBit p f * 2 ^ lastBit p f := by
        rw [Nat.pow_add]
        refine Nat.mul_le_mul_right _ ?_
        rw [Nat.le_div_iff_mul_le (Nat.two_pow_pos _), ← Nat.pow_add]
        exact hf
      have h2 : M * 2 ^ j < 2 ^ (p + j) := by
        rw [Nat.pow_add]; exact Nat.mul_lt_mul_of_pos_right hM (Nat.two_pow_pos _)
      have h3 : 2 ^ (p - 1 + lastBit p f) < 2 ^ (p + j) := by omega
      have h4 := (Nat.pow_lt_pow_iff_right (by decide : 1 < 2)).mp h3
      exact Nat.dvd_trans (Nat.pow_dvd_pow 2 (by omega)) (Nat.dvd_mul_left _ _)
    obtain ⟨c, rfl⟩ := hd
    rw [Nat.mul_comm (2 ^ lastBit p f) c] at h ⊢
    exact Nat.mul_le_mul_right _ (Nat.lt_of_mul_lt_mul_right h)

/-- rounding is to the nearest value: no other is closer to `num / den` (distances times `den`) -/
theorem rnd_nearest {p num den w : Nat} (hp : 0 < p) (hd : 0 < den) (hw : Fits p w) :
    (rnd p num den * den - num) + (num - rnd p num den * den)
      ≤ (w * den - num) + (num - w * den) := by
  have hk : 0 < 2 ^ lastBit p (num / den) := Nat.two_pow_pos _
  have hs : 0 < den * 2 ^ lastBit p (num / den) := Nat.mul_pos hd hk
  have hg := hw.grid (f := num / den) hp
  have hdd : num / den / 2 ^ lastBit p (num / den) = num / (den * 2 ^ lastBit p (num / den)) :=
    Nat.div_div_eq_div_mul _ _ _
  rw [hdd] at hg
  unfold rnd halfEven
  generalize 2 ^ lastBit p (num / den) = K at *
  have e := Nat.div_add_mod num (den * K)
  have hr := Nat.mod_lt num hs
  generalize num / (den * K) = q at *
  generalize num % (den * K) = r at *
  have e1 : q * K * den = den * K * q := by
    rw [Nat.mul_comm q K, Nat.mul_comm (den * K) q, Nat.mul_comm den K, Nat.mul_comm q,
      Nat.mul_assoc, Nat.mul_comm q den, ← Nat.mul_assoc]
  have e2 : (q + 1) * K * den = den * K * q + den * K := by
    rw [Nat.add_mul, Nat.add_mul, e1, Nat.one_mul, Nat.mul_comm K den]
  have cases : w * den ≤ den * K * q ∨ den * K * q + den * K ≤ w * den := by
    rcases Nat.lt_or_ge (q * K) w with h | h
    · right
      rw [← e2]
      exact Nat.mul_le_mul_right _ (hg h)
    · left
      rw [← e1]
      exact Nat.mul_le_mul_right _ h
  generalize w * den = W at *
  generalize den * K = S at *
  have hq2 : q % 2 = 0 ∨ q % 2 = 1 := by omega
  split
  · rw [e1]; omega
  · split
    · rw [e2]; omega
    · rcases hq2 with h2 | h2 <;> rw [h2]
      · rw [Nat.add_zero, e1]; omega
      · rw [e2]; omega

/-- a value that is as close as the rounded one is on the other side, and has an odd multiple of the last
bit where the rounded one has an even multiple -/
theorem rnd_tie {p num den w : Nat} (hp : 0 < p) (hd : 0 < den) (hw : Fits p w)
    (hne : w ≠ rnd p num den)
    (htie : (rnd p num den * den - num) + (num - rnd p num den * den)
      = (w * den - num) + (num - w * den)) :
    ∃ e c d, rnd p num den = 2 * c * 2 ^ e ∧ w = (2 * d + 1) * 2 ^ e := by
  have hk : 0 < 2 ^ lastBit p (num / den) := Nat.two_pow_pos _
  have hs : 0 < den * 2 ^ lastBit p (num / den) := Nat.mul_pos hd hk
  have hg := hw.grid (f := num / den) hp
  have hdd : num / den / 2 ^ lastBit p (num / den) = num / (den * 2 ^ lastBit p (num / den)) :=
    Nat.div_div_eq_div_mul _ _ _
  rw [hdd] at hg
  unfold rnd halfEven at hne htie ⊢
  refine ⟨lastBit p (num / den), ?_⟩
  generalize 2 ^ lastBit p (num / den) = K at *
  have e := Nat.div_add_mod num (den * K)
  have hr := Nat.mod_lt num hs
  generalize num / (den * K) = q at *
  generalize num % (den * K) = r at *
  have e1 : q * K * den = den * K * q := by
    rw [Nat.mul_comm q K, Nat.mul_comm (den * K) q, Nat.mul_comm den K, Nat.mul_comm q,
      Nat.mul_assoc, Nat.mul_comm q den, ← Nat.mul_assoc]
  have e2 : (q + 1) * K * den = den * K * q + den * K := by
    rw [Nat.add_mul, Nat.add_mul, e1, Nat.one_mul, Nat.mul_comm K den]
  have cases : w * den ≤ den * K * q ∨ den * K * q + den * K ≤ w * den := by
    rcases Nat.lt_or_ge (q * K) w with h | h
    · right
      rw [← e2]
      exact Nat.mul_le_mul_right _ (hg h)
    · left
      rw [← e1]
      exact Nat.mul_le_mul_right _ h
  have low : w * den = den * K * q → w = q * K := by
    intro h
    rw [← e1] at h
    exact Nat.eq_of_mul_eq_mul_right hd h
  have high : w * den = den * K * q + den * K → w = (q + 1) * K := by
    intro h
    rw [← e2] at h
    exact Nat.eq_of_mul_eq_mul_right hd h
  generalize w * den = W at *
  generalize den * K = S at *
  have hq2 : q % 2 = 0 ∨ q % 2 = 1 := by omega
  split at hne
  · next h1 =>
    rw [if_pos h1, e1] at htie
    exact absurd (low (by omega)) hne
  · next h1 =>
    rw [if_neg h1] at htie ⊢
    split at hne
    · next h2 =>
      rw [if_pos h2, e2] at htie
      exact absurd (high (by omega)) hne
    · next h2 =>
      rw [if_neg h2] at htie ⊢
      rcases hq2 with h3 | h3 <;> rw [h3] at htie hne ⊢
      · rw [Nat.add_zero] at hne htie ⊢
        rw [e1] at htie
        have hW : W = S * q + S := by
          have : W ≠ S * q := fun h => hne (low h)
          omega
        refine ⟨q / 2, q / 2, ?_, ?_⟩
        · rw [show 2 * (q / 2) = q by omega]
        · rw [show 2 * (q / 2) + 1 = q + 1 by omega]
          exact high hW
      · rw [e2] at htie
        have hW : W = S * q := by
          have : W ≠ S * q + S := fun h => hne (high h)
          omega
        refine ⟨q / 2 + 1, q / 2, ?_, ?_⟩
        · rw [show 2 * (q / 2 + 1) = q + 1 by omega]
        · rw [show 2 * (q / 2) + 1 = q by omega]
          exact low hW

end Sliced
