import Verif.Model.Text
import Verif.Model.Tests
import Verif.Proof.Basic
import Verif.Proof.Tools
/-! # Reading back what is printed; characters and tokens -/
namespace Sliced

theorem digitVal_ofNat : ∀ d, d < 10 → digitVal (Char.ofNat (48 + d)) = some d := by decide

theorem digit_plain {c : Char} {d : Nat} (h : digitVal c = some d) :
    isSpace c = false ∧ c ≠ '-' ∧ c ≠ '+' := by
  have hr : 48 ≤ c.toNat ∧ c.toNat ≤ 57 := by
    unfold digitVal at h
    split at h
    · assumption
    · cases h
  have key : ∀ c' : Char, c'.toNat < 48 → c ≠ c' := by
    intro c' h' e
    subst e
    omega
  refine ⟨?_, key _ (by decide), key _ (by decide)⟩
  unfold isSpace
  simp only [Bool.or_eq_false_iff, beq_eq_false_iff_ne]
  exact ⟨⟨⟨⟨⟨key _ (by decide), key _ (by decide)⟩, key _ (by decide)⟩, key _ (by decide)⟩,
    key _ (by decide)⟩, key _ (by decide)⟩

theorem showNat_small {n : Nat} (h : n < 10) : showNat n = [Char.ofNat (48 + n)] := by
  rw [showNat, if_pos h]

theorem showNat_large {n : Nat} (h : ¬ n < 10) :
    showNat n = showNat (n / 10) ++ [Char.ofNat (48 + n % 10)] := by
  rw [showNat, if_neg h]

theorem takeDigits_show : ∀ (m n : Nat) (rest : List Char),
    takeDigits n (showNat m ++ rest) = takeDigits (n * 10 ^ (showNat m).length + m) rest := by
  intro m
  induction m using Nat.strongRecOn with
  | ind m ih =>
    intro n rest
    by_cases h : m < 10
    · rw [showNat_small h, List.singleton_append, takeDigits, digitVal_ofNat m h]
      simp [Nat.mul_comm]
    · rw [showNat_large h, List.append_assoc, ih (m / 10) (by omega), List.singleton_append, takeDigits,
        digitVal_ofNat _ (Nat.mod_lt _ (by decide)), List.length_append, List.length_singleton]
      simp only
      congr 1
      rw [Nat.pow_succ, ← Nat.mul_assoc]
      have := Nat.div_add_mod m 10
      generalize n * 10 ^ (showNat (m / 10)).length = y
      omega

theorem showNat_cons : ∀ m : Nat, ∃ c t d, showNat m = c :: t ∧ digitVal c = some d := by
  intro m
  induction m using Nat.strongRecOn with
  | ind m ih =>
    by_cases h : m < 10
    · exact ⟨_, [], m, showNat_small h, digitVal_ofNat m h⟩
    · obtain ⟨c, t, d, e, hd⟩ := ih (m / 10) (by omega)
      exact ⟨c, t ++ [Char.ofNat (48 + m % 10)], d, by rw [showNat_large h, e]; rfl, hd⟩

theorem showNat_pos (m : Nat) : 0 < (showNat m).length := by
  obtain ⟨c, t, d, e, -⟩ := showNat_cons m
  rw [e]
  exact Nat.succ_pos _

/-- the text goes on with something that is not a digit -/
def NumberEnds (cs : List Char) : Prop := ∀ c, cs.head? = some c → digitVal c = none

theorem takeDigits_ends {n : Nat} {cs : List Char} (h : NumberEnds cs) : takeDigits n cs = (n, cs) := by
  cases cs with
  | nil => rfl
  | cons c cs => rw [takeDigits, h c rfl]

theorem scan_show {m : Nat} {ws rest : List Char} (hw : ∀ c ∈ ws, isSpace c = true) (h : NumberEnds rest) :
    scan (ws ++ (showNat m ++ rest)) = .num false m rest := by
  obtain ⟨c, t, d, e, hd⟩ := showNat_cons m
  obtain ⟨h1, h2, h3⟩ := digit_plain hd
  have key := takeDigits_show m 0 rest
  rw [Nat.zero_mul, Nat.zero_add, takeDigits_ends h, e, List.cons_append, takeDigits, hd] at key
  simp only [Nat.mul_zero, Nat.zero_add] at key
  have hdrop : (ws ++ (showNat m ++ rest)).dropWhile isSpace = c :: (t ++ rest) := by
    rw [e, List.cons_append]
    clear key e
    induction ws with
    | nil => rw [List.nil_append, List.dropWhile_cons_of_neg (by simp [h1])]
    | cons w ws ih =>
      rw [List.cons_append, List.dropWhile_cons_of_pos (hw w (by simp))]
      exact ih (fun c hc => hw c (List.mem_cons_of_mem _ hc))
  unfold scan
  rw [hdrop]
  simp only [if_neg h2, if_neg h3, scanDigits, hd, key]

theorem scan_space {c : Char} {cs : List Char} (h : isSpace c = true) : scan (c :: cs) = scan cs := by
  unfold scan
  rw [List.dropWhile_cons_of_pos h]

theorem dropWhile_all {ws : List Char} (hw : ∀ c ∈ ws, isSpace c = true) : ws.dropWhile isSpace = [] := by
  induction ws with
  | nil => rfl
  | cons w ws ih =>
    rw [List.dropWhile_cons_of_pos (hw w (by simp))]
    exact ih (fun c hc => hw c (List.mem_cons_of_mem _ hc))

theorem scan_nil : scan [] = .eof := rfl

/-! ## Progress -/

theorem takeDigits_le (n : Nat) (cs : List Char) : (takeDigits n cs).2.length ≤ cs.length := by
  induction cs generalizing n with
  | nil => exact Nat.le_refl _
  | cons c cs ih =>
    rw [takeDigits]
    split
    · exact Nat.le_trans (ih _) (Nat.le_succ _)
    · exact Nat.le_refl _

theorem scanDigits_lt {neg : Bool} {cs : List Char} {b : Bool} {n : Nat} {rest : List Char}
    (h : scanDigits neg cs = .num b n rest) : rest.length < cs.length := by
  cases cs with
  | nil => cases h
  | cons c cs =>
    rw [scanDigits] at h
    split at h
    · rename_i d _
      simp only [Scan.num.injEq] at h
      rw [← h.2.2]
      exact Nat.lt_succ_of_le (takeDigits_le _ _)
    · cases h

theorem scan_lt {cs : List Char} {b : Bool} {n : Nat} {rest : List Char} (h : scan cs = .num b n rest) :
    rest.length < cs.length := by
  have hd : (cs.dropWhile isSpace).length ≤ cs.length := (List.dropWhile_sublist _).length_le
  unfold scan at h
  split at h
  · cases h
  · rename_i c t e
    rw [e, List.length_cons] at hd
    split at h
    · have := scanDigits_lt h; omega
    · split at h
      · have := scanDigits_lt h; omega
      · have := scanDigits_lt h
        rw [List.length_cons] at this
        omega

theorem scan_fail_ne {cs rest : List Char} (h : scan cs = .fail rest) : cs ≠ [] := by
  rintro rfl
  cases h

/-! ## Tokens -/

/-- the tokens of a text: numbers by `g`, and `none` for the first thing that is none -/
def lex (g : Bool → Nat → Nat) : (fuel : Nat) → List Char → List (Option Nat)
  | 0, _ => []
  | f + 1, cs =>
    match scan cs with
    | .eof => []
    | .fail _ => [none]
    | .num neg n rest => some (g neg n) :: lex g f rest

variable {g : Bool → Nat → Nat}

theorem lex_length : ∀ (f : Nat) (cs : List Char), (lex g f cs).length ≤ cs.length
  | 0, _ => Nat.zero_le _
  | f + 1, cs => by
    unfold lex
    split
    · exact Nat.zero_le _
    · rename_i h
      exact List.length_pos_iff.mpr (scan_fail_ne h)
    · rename_i h
      have := scan_lt h
      have := lex_length f ‹List Char›
      rw [List.length_cons]
      omega

/-- reading numbers character by character is reading the tokens -/
theorem scan_numbers_lex : ∀ (k f : Nat) (cs : List Char), cs.length < f →
    scan_numbers (fun neg n => .ok (g neg n)) k cs = read_numbers ((lex g f cs).take k)
  | 0, _, _, _ => rfl
  | k + 1, 0, _, h => by omega
  | k + 1, f + 1, cs, h => by
    unfold scan_numbers lex
    cases e : scan cs with
    | eof => rfl
    | fail rest => rfl
    | num neg n rest =>
      have := scan_lt e
      simp only [ok_bind, List.take_succ_cons, read_numbers]
      rw [scan_numbers_lex k f rest (by omega)]

/-- the same for pairs, if all tokens are numbers -/
theorem scan_pairs_lex : ∀ (k f : Nat) (cs : List Char), cs.length < f → none ∉ lex g f cs →
    scan_pairs (fun neg n => .ok (g neg n)) k cs = read_pairs ((lex g f cs).take (k * 2))
  | 0, _, _, _, _ => by rw [Nat.zero_mul]; rfl
  | k + 1, 0, _, h, _ => by omega
  | k + 1, f + 1, cs, h, hn => by
    unfold scan_pairs
    unfold lex at hn ⊢
    cases e : scan cs with
    | eof => rw [List.take_nil]; rfl
    | fail rest => rw [e] at hn; exact absurd (List.mem_singleton_self _) hn
    | num neg n rest =>
      have h1 := scan_lt e
      rw [e] at hn
      simp only [ok_bind] at hn ⊢
      match f, h with
      | 0, h => omega
      | f + 1, h =>
        unfold lex at hn ⊢
        cases e2 : scan rest with
        | eof =>
          simp only
          rw [show (k + 1) * 2 = k * 2 + 1 + 1 by omega, List.take_succ_cons, List.take_nil]
          rfl
        | fail r => rw [e2] at hn; simp at hn
        | num neg2 n2 rest2 =>
          have h2 := scan_lt e2
          rw [e2] at hn
          simp only [ok_bind]
          rw [show (k + 1) * 2 = k * 2 + 1 + 1 by omega, List.take_succ_cons, List.take_succ_cons,
            read_pairs, scan_pairs_lex k f rest2 (by omega) (fun hm => hn (by simp [hm]))]

/-! ## Printed numbers -/

theorem numberEnds_cons {c : Char} (h : digitVal c = none) (cs : List Char) : NumberEnds (c :: cs) := by
  intro c' hc
  simp only [List.head?_cons, Option.some.injEq] at hc
  subst hc
  exact h

theorem scan_lines {q : Nat} {ws rest : List Char} (hw : ∀ c ∈ ws, isSpace c = true) :
    scan (ws ++ (showNat q ++ ('\n' :: rest))) = .num false q ('\n' :: rest) :=
  scan_show hw (numberEnds_cons (by decide) _)

theorem lines_cons (q : Nat) (qs : List Nat) : lines (q :: qs) = showNat q ++ ('\n' :: lines qs) := by
  simp [lines]

theorem lex_lines : ∀ (qs : List Nat) (f : Nat) (ws : List Char), (∀ c ∈ ws, isSpace c = true) →
    ws.length + (lines qs).length < f → lex g f (ws ++ lines qs) = qs.map (fun q => some (g false q))
  | [], f, ws, hw, hf => by
    match f, hf with
    | f + 1, _ =>
      unfold lex
      have : scan (ws ++ lines []) = .eof := by
        unfold scan
        rw [show ws ++ lines [] = ws by simp [lines], dropWhile_all hw]
      rw [this]
      rfl
  | q :: qs, f, ws, hw, hf => by
    match f, hf with
    | f + 1, hf =>
      have hpos := showNat_pos q
      rw [lines_cons, List.length_append, List.length_cons] at hf
      unfold lex
      rw [lines_cons, scan_lines hw]
      simp only [List.map_cons, List.cons.injEq, true_and]
      exact lex_lines qs f ['\n'] (by simp [isSpace]) (by simp only [List.length_singleton]; omega)

theorem pairLines_cons (q : Nat × Nat) (qs : List (Nat × Nat)) :
    pairLines (q :: qs) = showNat q.1 ++ ('\t' :: (showNat q.2 ++ ('\n' :: pairLines qs))) := by
  simp [pairLines]

theorem lex_pairLines : ∀ (qs : List (Nat × Nat)) (f : Nat) (ws : List Char),
    (∀ c ∈ ws, isSpace c = true) → ws.length + (pairLines qs).length < f →
    lex g f (ws ++ pairLines qs) = pairTokens (qs.map (fun q => (g false q.1, g false q.2)))
  | [], f, ws, hw, hf => lex_lines [] f ws hw hf
  | q :: qs, f, ws, hw, hf => by
    match f, hf with
    | 0, hf => omega
    | 1, hf =>
      have h1 := showNat_pos q.1
      rw [pairLines_cons, List.length_append, List.length_cons, List.length_append] at hf
      omega
    | f + 1 + 1, hf =>
      have h1 := showNat_pos q.1
      have h2 := showNat_pos q.2
      rw [pairLines_cons, List.length_append, List.length_cons, List.length_append,
        List.length_cons] at hf
      unfold lex
      rw [pairLines_cons, scan_show hw (numberEnds_cons (by decide) _)]
      simp only
      unfold lex
      have := scan_lines (q := q.2) (ws := ['\t']) (rest := pairLines qs) (by simp [isSpace])
      rw [List.singleton_append] at this
      rw [this]
      simp only
      have ih := lex_pairLines qs f ['\n'] (by simp [isSpace])
        (by simp only [List.length_singleton]; omega)
      rw [List.singleton_append] at ih
      rw [ih]
      rfl

/-- Reading printed numbers with any conversion. -/
theorem scan_numbers_lines {conv : Bool → Nat → Res Nat} : ∀ (k : Nat) (qs : List Nat) (ws : List Char),
    (∀ c ∈ ws, isSpace c = true) →
    scan_numbers conv k (ws ++ lines qs) = (qs.take k).mapM (conv false)
  | 0, _, _, _ => rfl
  | k + 1, [], ws, hw => by
    unfold scan_numbers
    have : scan (ws ++ lines []) = .eof := by
      unfold scan
      rw [show ws ++ lines [] = ws by simp [lines], dropWhile_all hw]
    rw [this]
    rfl
  | k + 1, q :: qs, ws, hw => by
    unfold scan_numbers
    rw [lines_cons, scan_lines hw]
    have ih := scan_numbers_lines (conv := conv) k qs ['\n'] (by simp [isSpace])
    rw [List.singleton_append] at ih
    simp only [ih, List.take_succ_cons, List.mapM_cons]

/-- the same for pairs -/
theorem scan_pairs_lines {conv : Bool → Nat → Res Nat} : ∀ (k : Nat) (qs : List (Nat × Nat))
    (ws : List Char), (∀ c ∈ ws, isSpace c = true) →
    scan_pairs conv k (ws ++ pairLines qs) = (qs.take k).mapM (fun q => do
      let i ← conv false q.1
      let j ← conv false q.2
      return (i, j))
  | 0, _, _, _ => rfl
  | k + 1, [], ws, hw => by
    unfold scan_pairs
    have : scan (ws ++ pairLines []) = .eof := by
      unfold scan
      rw [show ws ++ pairLines [] = ws by simp [pairLines], dropWhile_all hw]
    rw [this]
    rfl
  | k + 1, q :: qs, ws, hw => by
    unfold scan_pairs
    rw [pairLines_cons, scan_show hw (numberEnds_cons (by decide) _)]
    have h2 := scan_lines (q := q.2) (ws := ['\t']) (rest := pairLines qs) (by simp [isSpace])
    rw [List.singleton_append] at h2
    have ih := scan_pairs_lines (conv := conv) k qs ['\n'] (by simp [isSpace])
    rw [List.singleton_append] at ih
    simp only [h2, ih, List.take_succ_cons, List.mapM_cons, bind_assoc, pure_bind]

theorem mapM_each {α β : Type} {f : α → Res β} {h : α → β} : ∀ {l : List α},
    (∀ x ∈ l, f x = .ok (h x)) → l.mapM f = .ok (l.map h)
  | [], _ => rfl
  | x :: l, hx => by
    rw [List.mapM_cons, hx x (by simp), ok_bind, mapM_each (fun y hy => hx y (List.mem_cons_of_mem _ hy))]
    rfl

theorem mapM_some_ub {α β : Type} {f : α → Res β} : ∀ {l : List α},
    (∀ x ∈ l, (∃ y, f x = .ok y) ∨ f x = .error .ub) → (∃ x ∈ l, f x = .error .ub) →
    l.mapM f = .error .ub
  | [], _, ⟨x, hx, _⟩ => by cases hx
  | x :: l, h, ⟨y, hy, hf⟩ => by
    rw [List.mapM_cons]
    rcases h x (by simp) with ⟨z, hz⟩ | hz
    · rw [hz, ok_bind]
      rcases List.mem_cons.mp hy with rfl | hy
      · rw [hf] at hz; cases hz
      · rw [mapM_some_ub (fun w hw => h w (List.mem_cons_of_mem _ hw)) ⟨y, hy, hf⟩]
        rfl
    · rw [hz]; rfl

end Sliced
