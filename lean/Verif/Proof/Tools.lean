import Verif.Model.Tools
import Verif.Proof.Basic
/-! # Loops of the command-line programs -/
namespace Sliced

variable {σ α : Type}

theorem forRange_spec {body : Nat → σ → Res σ} (P : Nat → σ → Prop) : ∀ (n i : Nat) (s : σ), P i s →
    (∀ j s, i ≤ j → j < i + n → P j s → ∃ s', body j s = .ok s' ∧ P (j + 1) s') →
    ∃ s', forRange body n i s = .ok s' ∧ P (i + n) s'
  | 0, _, s, h, _ => ⟨s, rfl, h⟩
  | n + 1, i, s, h, hb => by
    obtain ⟨s1, e1, h1⟩ := hb i s (Nat.le_refl _) (by omega) h
    obtain ⟨s2, e2, h2⟩ := forRange_spec P n (i + 1) s1 h1
      (fun j s hj hj' => hb j s (by omega) (by omega))
    refine ⟨s2, ?_, by rwa [show i + (n + 1) = i + 1 + n by omega]⟩
    unfold forRange
    rw [e1]; exact e2

/-- the loop fails in iteration `k` -/
theorem forRange_err {body : Nat → σ → Res σ} {e : Err} (P : Nat → σ → Prop) (k : Nat) :
    ∀ (n i : Nat) (s : σ), P i s → i ≤ k → k < i + n →
    (∀ j s, i ≤ j → j < k → P j s → ∃ s', body j s = .ok s' ∧ P (j + 1) s') →
    (∀ s, P k s → body k s = .error e) →
    forRange body n i s = .error e
  | 0, _, _, _, _, h, _, _ => by omega
  | n + 1, i, s, h, hik, hk, hb, he => by
    unfold forRange
    by_cases hi : i = k
    · subst hi
      rw [he s h]; rfl
    · obtain ⟨s1, e1, h1⟩ := hb i s (Nat.le_refl _) (by omega) h
      rw [e1]
      exact forRange_err P k n (i + 1) s1 h1 (by omega) (by omega)
        (fun j s hj hj' => hb j s (by omega) hj') he

theorem forRange32_spec {body : Nat → σ → Res σ} (P : Nat → σ → Prop) {n : Nat} {s : σ}
    (hn : n < 4294967296) (h : P 0 s)
    (hb : ∀ j s, j < n → P j s → ∃ s', body j s = .ok s' ∧ P (j + 1) s') :
    ∃ s', forRange32 body n s = .ok s' ∧ P n s' := by
  obtain ⟨s', e, h'⟩ := forRange_spec P n 0 s h (fun j s _ hj => hb j s (by omega))
  rw [Nat.zero_add] at h'
  refine ⟨s', ?_, h'⟩
  unfold forRange32
  rw [if_pos hn]; exact e

theorem forRange32_err {body : Nat → σ → Res σ} {e : Err} (P : Nat → σ → Prop) {k n : Nat} {s : σ}
    (hn : n < 4294967296) (h : P 0 s) (hk : k < n)
    (hb : ∀ j s, j < k → P j s → ∃ s', body j s = .ok s' ∧ P (j + 1) s')
    (he : ∀ s, P k s → body k s = .error e) : forRange32 body n s = .error e := by
  unfold forRange32
  rw [if_pos hn]
  exact forRange_err P k n 0 s h (by omega) (by omega) (fun j s _ hj => hb j s hj) he

theorem forEach_spec {body : α → σ → Res σ} (P : List α → σ → Prop) : ∀ (v pre : List α) (s : σ),
    P pre s →
    (∀ pre x s, x ∈ v → P pre s → ∃ s', body x s = .ok s' ∧ P (pre ++ [x]) s') →
    ∃ s', forEach body v s = .ok s' ∧ P (pre ++ v) s'
  | [], pre, s, h, _ => ⟨s, rfl, by rwa [List.append_nil]⟩
  | x :: v, pre, s, h, hb => by
    obtain ⟨s1, e1, h1⟩ := hb pre x s List.mem_cons_self h
    obtain ⟨s2, e2, h2⟩ := forEach_spec P v (pre ++ [x]) s1 h1
      (fun pre y s hy => hb pre y s (List.mem_cons_of_mem _ hy))
    refine ⟨s2, ?_, ?_⟩
    · unfold forEach
      rw [e1]; exact e2
    · rwa [List.append_assoc, List.singleton_append] at h2

/-! ## Input -/

theorem read_numbers_some : ∀ vs : List Nat, read_numbers (vs.map some) = .ok vs
  | [] => rfl
  | v :: vs => by
    rw [List.map_cons]
    unfold read_numbers
    rw [read_numbers_some vs]; rfl

/-- the tokens of a list of pairs -/
def pairTokens (qs : List (Nat × Nat)) : List (Option Nat) := qs.flatMap (fun q => [some q.1, some q.2])

theorem read_pairs_some : ∀ qs : List (Nat × Nat), read_pairs (pairTokens qs) = .ok qs
  | [] => rfl
  | q :: qs => by
    show read_pairs (some q.1 :: some q.2 :: pairTokens qs) = _
    unfold read_pairs
    rw [read_pairs_some qs]; rfl

theorem read_pairs_odd (v : Nat) : ∀ qs : List (Nat × Nat),
    read_pairs (pairTokens qs ++ [some v]) = .ok qs
  | [] => rfl
  | q :: qs => by
    show read_pairs (some q.1 :: some q.2 :: (pairTokens qs ++ [some v])) = _
    unfold read_pairs
    rw [read_pairs_odd v qs]; rfl

theorem pairTokens_take : ∀ (n : Nat) (qs : List (Nat × Nat)),
    (pairTokens qs).take (n * 2) = pairTokens (qs.take n)
  | 0, qs => by simp [pairTokens]
  | n + 1, [] => by simp [pairTokens]
  | n + 1, q :: qs => by
    show (some q.1 :: some q.2 :: pairTokens qs).take ((n + 1) * 2)
      = some q.1 :: some q.2 :: pairTokens (qs.take n)
    rw [show (n + 1) * 2 = n * 2 + 1 + 1 by omega, List.take_succ_cons, List.take_succ_cons,
      pairTokens_take n qs]

theorem limit_pairs {n : Nat} (hn : n < 4294967296) (qs : List (Nat × Nat)) :
    read_pairs (limit n 2 (pairTokens qs)) = .ok (qs.take n) := by
  unfold limit
  rw [if_pos hn, pairTokens_take, read_pairs_some]

theorem limit_numbers (n : Nat) (vs : List Nat) :
    ∃ r, read_numbers (limit n 1 (vs.map some)) = .ok r ∧
      (∀ i, i < n → r[i]? = vs[i]?) := by
  unfold limit
  by_cases h : n < 4294967296
  · rw [if_pos h, ← List.map_take, read_numbers_some]
    refine ⟨_, rfl, fun i hi => ?_⟩
    rw [List.getElem?_take_of_lt (by omega)]
  · rw [if_neg h, read_numbers_some]
    exact ⟨_, rfl, fun i _ => rfl⟩

theorem u64_add (a b : Nat) : u64 (a % 18446744073709551616 + b) = (a + b) % 18446744073709551616 := by
  unfold u64; omega

theorem sum_take_succ {L : List Nat} {i x : Nat} (h : L[i]? = some x) :
    (L.take (i + 1)).sum = (L.take i).sum + x := by
  rw [List.take_succ, h]
  simp

end Sliced
