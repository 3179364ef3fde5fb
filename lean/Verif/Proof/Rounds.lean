import Verif.Proof.Ends
import Verif.Proof.UnionMany
import Verif.Proof.IntersectionMany
/-!
# How many rounds the loops of the set operations take
-/
namespace Sliced

/-- The loop takes exactly `n` rounds: it does not come to an end if it may begin `n` rounds only, and with
more it comes to an end, always in the same way.  (A loop with the fuel `n + 1` may go through its body
`n` times and find out that it is over.) -/
structure Takes {α : Type} (loop : Nat → Res α) (n : Nat) : Prop where
  less : ∀ f, f ≤ n → loop f = .error .diverge
  ends : Ends (loop (n + 1))
  more : ∀ f, n < f → loop f = loop (n + 1)

/-- The loop takes at most `n` rounds. -/
def AtMost {α : Type} (loop : Nat → Res α) (n : Nat) : Prop := ∃ k, k ≤ n ∧ Takes loop k

/-- more fuel does not change the outcome of a loop that ends -/
structure Fuelled {α : Type} (loop : Nat → Res α) : Prop where
  zero : loop 0 = .error .diverge
  step : ∀ f, Ends (loop f) → loop (f + 1) = loop f

theorem Fuelled.more {α : Type} {loop : Nat → Res α} (h : Fuelled loop) {f f' : Nat}
    (he : Ends (loop f)) (hf : f ≤ f') : loop f' = loop f := by
  induction hf with
  | refl => rfl
  | step _ ih => rw [h.step _ (by rw [ih]; exact he), ih]

theorem Fuelled.takes {α : Type} {loop : Nat → Res α} (h : Fuelled loop) {n : Nat}
    (h0 : loop n = .error .diverge) (h1 : Ends (loop (n + 1))) : Takes loop n := by
  refine ⟨fun f hf => ?_, h1, fun f hf => h.more h1 hf⟩
  by_cases e : loop f = .error .diverge
  · exact e
  · exact absurd h0 (by rw [h.more ⟨e⟩ hf]; exact e)

theorem Fuelled.atMost {α : Type} {loop : Nat → Res α} (h : Fuelled loop) :
    ∀ n, Ends (loop (n + 1)) → AtMost loop n
  | 0, h1 => ⟨0, Nat.le_refl _, h.takes h.zero h1⟩
  | n + 1, h1 => by
    by_cases e : loop (n + 1) = .error .diverge
    · exact ⟨n + 1, Nat.le_refl _, h.takes e h1⟩
    · obtain ⟨k, hk, t⟩ := h.atMost n ⟨e⟩
      exact ⟨k, by omega, t⟩

/-- the number of rounds is determined -/
theorem Takes.unique {α : Type} {loop : Nat → Res α} {n k : Nat} (h : Takes loop n)
    (h' : Takes loop k) : n = k := by
  rcases Nat.lt_trichotomy n k with e | e | e
  · exact absurd (h'.less (n + 1) e) h.ends.ne
  · exact e
  · exact absurd (h.less (k + 1) e) h'.ends.ne

theorem bind_more {α β : Type} {x : Res α} {k k' : α → Res β} (h : Ends (x >>= k))
    (hk : ∀ a, x = .ok a → Ends (k a) → k' a = k a) : (x >>= k') = (x >>= k) := by
  cases x with
  | error e => rfl
  | ok a => exact hk a rfl h

theorem ite_more {α : Type} {c : Prop} [Decidable c] {x x' y y' : Res α} (h : Ends (if c then x else y))
    (hx : Ends x → x' = x) (hy : Ends y → y' = y) :
    (if c then x' else y') = if c then x else y := by
  by_cases hc : c
  · rw [if_pos hc] at h ⊢; rw [if_pos hc]; exact hx h
  · rw [if_neg hc] at h ⊢; rw [if_neg hc]; exact hy h

theorem candidate_while_step (m : Mem) (f : Nat) (its : List It) (candidate i : Nat)
    (headers : List Nat) (n : Nat) (h : Ends (candidate_while m f its candidate i headers n)) :
    candidate_while m (f + 1) its candidate i headers n
      = candidate_while m f its candidate i headers n := by
  induction f generalizing its candidate i headers n with
  | zero => exact absurd rfl h.ne
  | succ f ih =>
    rw [candidate_while] at h
    rw [candidate_while, candidate_while]
    refine ite_more h (fun h => ?_) (fun _ => rfl)
    refine bind_more h (fun q _ h => ?_)
    obtain ⟨its, c, i⟩ := q
    refine ite_more h (fun h => ?_) (fun h => ih _ _ _ _ _ h)
    refine bind_more h (fun _ _ h => bind_more h (fun _ _ h => bind_more h (fun _ _ h => ?_)))
    exact bind_more h (fun _ _ h => ih _ _ _ _ _ h)

theorem candidate_while_fuelled (m : Mem) (its : List It) (candidate i : Nat)
    (headers : List Nat) (n : Nat) :
    Fuelled (fun f => candidate_while m f its candidate i headers n) :=
  ⟨rfl, fun _ h => candidate_while_step _ _ _ _ _ _ _ h⟩

theorem pairwise_intersection_loop_step (dbg : Bool) (tab : Nat → List Nat) (m : Mem) (f : Nat)
    (l r : It) (x buf : List Nat) (out : Nat)
    (h : Ends (pairwise_intersection_loop dbg tab m f l r x buf out)) :
    pairwise_intersection_loop dbg tab m (f + 1) l r x buf out
      = pairwise_intersection_loop dbg tab m f l r x buf out := by
  induction f generalizing l r x buf out with
  | zero => exact absurd rfl h.ne
  | succ f ih =>
    rw [pairwise_intersection_loop] at h
    rw [pairwise_intersection_loop, pairwise_intersection_loop]
    refine ite_more h (fun h => ?_) (fun _ => rfl)
    refine bind_more h (fun _ _ h => bind_more h (fun _ _ h => ?_))
    refine ite_more h (fun h => ?_) (fun h => ite_more h (fun h => ?_) (fun h => ?_))
    · refine bind_more h (fun q _ h => ?_)
      exact bind_more h (fun _ _ h => bind_more h (fun _ _ h => ih _ _ _ _ _ h))
    · exact bind_more h (fun _ _ h => ih _ _ _ _ _ h)
    · exact bind_more h (fun _ _ h => ih _ _ _ _ _ h)

theorem pairwise_intersection_loop_fuelled (dbg : Bool) (tab : Nat → List Nat) (m : Mem)
    (l r : It) (x buf : List Nat) (out : Nat) :
    Fuelled (fun f => pairwise_intersection_loop dbg tab m f l r x buf out) :=
  ⟨rfl, fun _ h => pairwise_intersection_loop_step _ _ _ _ _ _ _ _ _ h⟩

theorem pairwise_union_loop_step (dbg : Bool) (m : Mem) (f : Nat)
    (l r : It) (s : UScratch) (buf : List Nat) (out : Nat)
    (h : Ends (pairwise_union_loop dbg m f l r s buf out)) :
    pairwise_union_loop dbg m (f + 1) l r s buf out
      = pairwise_union_loop dbg m f l r s buf out := by
  induction f generalizing l r s buf out with
  | zero => exact absurd rfl h.ne
  | succ f ih =>
    rw [pairwise_union_loop] at h
    rw [pairwise_union_loop, pairwise_union_loop]
    refine bind_more h (fun _ _ h => bind_more h (fun _ _ h => ?_))
    refine ite_more h (fun h => ?_) (fun h => ite_more h (fun h => ?_) (fun h => ?_))
    · refine bind_more h (fun q _ h => ?_)
      refine bind_more h (fun _ _ h => bind_more h (fun _ _ h => ?_))
      exact ite_more h (fun _ => rfl) (fun h => ih _ _ _ _ _ h)
    · refine bind_more h (fun q _ h => bind_more h (fun _ _ h => ?_))
      exact ite_more h (fun _ => rfl) (fun h => ih _ _ _ _ _ h)
    · refine bind_more h (fun q _ h => bind_more h (fun _ _ h => ?_))
      exact ite_more h (fun _ => rfl) (fun h => ih _ _ _ _ _ h)

theorem pairwise_union_loop_fuelled (dbg : Bool) (m : Mem)
    (l r : It) (s : UScratch) (buf : List Nat) (out : Nat) :
    Fuelled (fun f => pairwise_union_loop dbg m f l r s buf out) :=
  ⟨rfl, fun _ h => pairwise_union_loop_step _ _ _ _ _ _ _ _ h⟩

theorem union_many_loop_turn (dbg : Bool) (m : Mem) (f : Nat) (its : List It) (header : Nat)
    (s : MScratch) (buf : List Nat) (out : Nat)
    (h : Ends (union_many_loop dbg m f its header s buf out)) :
    union_many_loop dbg m (f + 1) its header s buf out
      = union_many_loop dbg m f its header s buf out := by
  induction f generalizing its header s buf out with
  | zero => exact absurd rfl h.ne
  | succ f ih =>
    rw [union_many_loop] at h
    rw [union_many_loop, union_many_loop]
    refine ite_more h (fun h => ?_) (fun _ => rfl)
    refine bind_more h (fun q _ h => bind_more h (fun q _ h => bind_more h (fun q _ h => ?_)))
    exact ih _ _ _ _ _ h

theorem union_many_loop_fuelled (dbg : Bool) (m : Mem) (its : List It) (header : Nat)
    (s : MScratch) (buf : List Nat) (out : Nat) :
    Fuelled (fun f => union_many_loop dbg m f its header s buf out) :=
  ⟨rfl, fun _ h => union_many_loop_turn _ _ _ _ _ _ _ _ h⟩

/-! ## The candidate search -/

theorem It.advance_loop_moves (m : Mem) (lb f : Nat) (it it' : It)
    (h : It.advance_loop m lb f it = .ok it') : it' = it ∨ it.begin_ < it'.begin_ := by
  induction f generalizing it with
  | zero => cases h
  | succ f ih =>
    unfold It.advance_loop at h
    obtain ⟨i, hi, h⟩ := bind_ok h
    split at h
    · obtain ⟨it1, h1, h⟩ := bind_ok h
      obtain ⟨p1, p2⟩ := It.next_pos h1
      obtain ⟨a, b, -⟩ := It.advance_loop_post _ _ _ _ _ h
      exact .inr (by omega)
    · cases h
      exact .inl rfl

theorem It.skip_value_loop_moves (m : Mem) (lb f : Nat) (it it' : It)
    (h : It.skip_value_loop m lb f it = .ok it') : it' = it ∨ it.begin_ < it'.begin_ := by
  induction f generalizing it with
  | zero => cases h
  | succ f ih =>
    unfold It.skip_value_loop at h
    split at h
    · obtain ⟨x, -, h⟩ := bind_ok h
      split at h
      · obtain ⟨it1, h1, h⟩ := bind_ok h
        obtain ⟨p1, p2⟩ := It.jump_pos h1
        obtain ⟨a, b⟩ := It.skip_value_loop_post _ _ _ _ _ h
        exact .inr (by omega)
      · cases h
        exact .inl rfl
    · cases h
      exact .inl rfl

theorem It.skip_to_value_moves {m : Mem} {lb : Nat} {it it' : It}
    (h : it.skip_to_value m lb = .ok it') : it' = it ∨ it.begin_ < it'.begin_ := by
  unfold It.skip_to_value at h
  obtain ⟨it1, h1, h⟩ := bind_ok h
  obtain ⟨-, b⟩ := It.skip_value_loop_post _ _ _ _ _ h1
  obtain ⟨-, d, -⟩ := It.advance_loop_post _ _ _ _ _ h
  rcases It.skip_value_loop_moves _ _ _ _ _ h1 with e | e
  · rw [e] at h
    exact It.advance_loop_moves _ _ _ _ _ h
  · exact .inr (by omega)

/-- the `for` loop from the second iterator on leaves the first one alone -/
theorem candidate_for_rest (m : Mem) (f : Nat) (its : List It) (candidate i : Nat)
    (hc : candidate < 65536) (hi : 0 < i) (hil : i ≤ its.length) (hf : its.length - i < f) :
    EndsP (fun q => q.1[0]? = its[0]? ∧ q.1.length = its.length ∧
      ((q.2.2 = 0 ∧ candidate < q.2.1 ∧ q.2.1 ≤ 65536) ∨ (q.2.2 = its.length ∧ q.2.1 = candidate)))
      (candidate_for m f its candidate i) := by
  induction f generalizing its i with
  | zero => omega
  | succ f ih =>
    unfold candidate_for
    split
    · rename_i hlt
      refine EndsP.bind' (rdIt_ends ..) (fun it h1 => EndsP.bind' (It.skip_to_value_ends ..)
        (fun it' h2 => ?_))
      dsimp only
      refine EndsP.bind' (It.id_ends ..) (fun val hv => ?_)
      obtain ⟨-, -, p3⟩ := It.skip_to_value_post h2
      have hge := p3 (by omega) val hv
      have hle := It.id_le hv
      have h0 : (its.set i it')[0]? = its[0]? := List.getElem?_set_ne (by omega)
      split
      · exact EndsP.pure ⟨h0, List.length_set, .inl ⟨rfl, by dsimp only; omega, hle⟩⟩
      · have ih := ih (its.set i it') (i + 1) (by omega) (by rw [List.length_set]; omega)
          (by rw [List.length_set]; omega)
        rw [h0, List.length_set] at ih
        exact ih
    · exact EndsP.pure ⟨rfl, rfl, .inr ⟨by dsimp only; omega, rfl⟩⟩

/-- what is left of the first iterator, counted twice, plus one if it is on the candidate -/
def phi (it : It) (j candidate : Nat) : Nat :=
  2 * (it.end_ - it.begin_) + if j = candidate then 1 else 0

theorem phi_pos {m : Mem} {it : It} {j c : Nat} (h : it.id m = .ok j) (hj : j ≤ c) (hc : c ≤ 65536) :
    0 < phi it j c := by
  unfold phi
  cases hn : it.has_next with
  | true =>
    have := (It.has_next_iff _).mp hn
    omega
  | false =>
    have : j = 65536 := by
      unfold It.id at h
      rw [hn] at h
      cases h
      rfl
    rw [if_pos (by omega)]
    omega

theorem candidate_for_rounds (m : Mem) (f : Nat) (its : List It) (candidate i : Nat) (it0 : It) (j : Nat)
    (h0 : its[0]? = some it0) (hj : it0.id m = .ok j) (hjc : j ≤ candidate) (hc : candidate < 65536)
    (hf : its.length - i < f) (hi : i = 0 ∨ (0 < i ∧ i ≤ its.length ∧ j = candidate)) :
    EndsP (fun q => q.1.length = its.length ∧ ∃ it0' j', q.1[0]? = some it0' ∧ it0'.id m = .ok j' ∧
      ((q.2.2 = 0 ∧ j' ≤ q.2.1 ∧ q.2.1 ≤ 65536 ∧ phi it0' j' q.2.1 < phi it0 j candidate) ∨
        (q.2.2 = its.length ∧ q.2.1 = candidate ∧ j' = candidate ∧ it0'.end_ = it0.end_ ∧
          it0.begin_ ≤ it0'.begin_)))
      (candidate_for m f its candidate i) := by
  have hlen : 0 < its.length := by
    have := (List.getElem?_eq_some_iff.mp h0).1
    omega
  rcases hi with rfl | ⟨hi, hil, rfl⟩
  · cases f with
    | zero => omega
    | succ f =>
      unfold candidate_for
      rw [if_pos hlen]
      refine EndsP.bind' (rdIt_ends ..) (fun it h1 => EndsP.bind' (It.skip_to_value_ends ..)
        (fun it' h2 => ?_))
      dsimp only
      refine EndsP.bind' (It.id_ends ..) (fun val hv => ?_)
      have h1 := rdIt_eq h1
      rw [h0] at h1
      cases h1
      obtain ⟨p1, p2, p3⟩ := It.skip_to_value_post h2
      have hge := p3 (by omega) val hv
      have hle := It.id_le hv
      have hn := (It.has_next_iff _).mp (It.has_next_of_id hj (by omega))
      have hs : (its.set 0 it')[0]? = some it' := List.getElem?_set_self hlen
      have hmove : j ≠ val → it0.begin_ < it'.begin_ := by
        intro hne
        rcases It.skip_to_value_moves h2 with e | e
        · subst e
          rw [hj] at hv
          cases hv
          exact absurd rfl hne
        · exact e
      split
      · rename_i hne
        refine EndsP.pure ⟨List.length_set, it', val, hs, hv, .inl ⟨rfl, Nat.le_refl _, hle, ?_⟩⟩
        have := hmove (by omega)
        unfold phi
        rw [if_pos rfl]
        omega
      · rename_i hne
        have hval : val = candidate := by omega
        subst hval
        have hr := candidate_for_rest m f (its.set 0 it') val 1 hc (by omega)
          (by rw [List.length_set]; omega) (by rw [List.length_set]; omega)
        refine ⟨hr.ends, fun q hq => ?_⟩
        obtain ⟨r1, r2, r3⟩ := hr.post q hq
        rw [List.length_set] at r2 r3
        rw [hs] at r1
        refine ⟨r2, it', val, r1, hv, ?_⟩
        rcases r3 with ⟨a, b, c⟩ | ⟨a, b⟩
        · refine .inl ⟨a, by omega, c, ?_⟩
          unfold phi
          rw [if_neg (by omega)]
          by_cases e : j = val
          · rw [if_pos e]; omega
          · have := hmove e
            omega
        · exact .inr ⟨a, b, rfl, p1, p2⟩
  · have hr := candidate_for_rest m f its j i hc hi hil hf
    refine ⟨hr.ends, fun q hq => ?_⟩
    obtain ⟨r1, r2, r3⟩ := hr.post q hq
    rw [h0] at r1
    refine ⟨r2, it0, j, r1, hj, ?_⟩
    rcases r3 with ⟨a, b, c⟩ | ⟨a, b⟩
    · refine .inl ⟨a, by omega, c, ?_⟩
      unfold phi
      rw [if_neg (by omega), if_pos rfl]
      omega
    · exact .inr ⟨a, b, rfl, rfl, Nat.le_refl _⟩

theorem candidate_while_rounds (m : Mem) (f : Nat) (its : List It) (candidate i : Nat)
    (headers : List Nat) (n : Nat) (it0 : It) (j : Nat) (h0 : its[0]? = some it0)
    (hj : it0.id m = .ok j) (hjc : j ≤ candidate) (hc : candidate ≤ 65536)
    (hi : i = 0 ∨ (0 < i ∧ i ≤ its.length ∧ j = candidate)) (hf : phi it0 j candidate ≤ f) :
    Ends (candidate_while m f its candidate i headers n) := by
  induction f generalizing its candidate i headers n it0 j with
  | zero =>
    have := phi_pos hj hjc hc
    omega
  | succ f ih =>
    unfold candidate_while
    split
    · rename_i hlt
      refine EndsP.bindE (candidate_for_rounds m _ its candidate i it0 j h0 hj hjc hlt (by omega) hi)
        (fun q hq => ?_)
      obtain ⟨its', c', i'⟩ := q
      obtain ⟨q1, it0', j', q2, q3, q4⟩ := hq
      have hlen : 0 < its.length := by
        have := (List.getElem?_eq_some_iff.mp h0).1
        omega
      dsimp only at q1 q2 q4 ⊢
      rcases q4 with ⟨z1, z2, z3, z4⟩ | ⟨z1, z2, z3, z4, z5⟩
      · rw [if_neg (by omega)]
        exact ih _ _ _ _ _ it0' j' q2 q3 z2 z3 (.inl z1) (by omega)
      · rw [if_pos (by omega)]
        refine Ends.bind (wr_ends ..) (fun hs => Ends.bind' (rdIt_ends ..) (fun it h1 =>
          Ends.bind' (It.next_ends ..) (fun it' h2 => Ends.bind' (It.id_ends ..) (fun c hc' => ?_))))
        have h1 := rdIt_eq h1
        rw [q2] at h1
        cases h1
        obtain ⟨n1, n2⟩ := It.next_pos h2
        have hn := (It.has_next_iff _).mp (It.has_next_of_id q3 (by omega))
        refine ih _ _ _ _ _ it' c (by rw [List.getElem?_set_self (by omega)]) hc' (Nat.le_refl _)
          (It.id_le hc') (.inr ⟨by omega, by rw [List.length_set]; omega, rfl⟩) ?_
        unfold phi at hf ⊢
        rw [if_pos rfl]
        omega
    · exact Ends.pure _

/-! ## The loop of the pairwise intersection -/

theorem pairwise_intersection_loop_rounds (dbg : Bool) (tab : Nat → List Nat) (m : Mem) (side : Bool)
    (f : Nat) (it_l it_r : It) (x buf : List Nat) (out : Nat) (h1 : 1 ≤ f)
    (hf : ∀ i_l i_r, it_l.id m = .ok i_l → it_r.id m = .ok i_r →
      (if side then 2 * (it_l.end_ - it_l.begin_) + (if i_r < i_l then 1 else 0)
        else 2 * (it_r.end_ - it_r.begin_) + (if i_l < i_r then 1 else 0)) ≤ f) :
    Ends (pairwise_intersection_loop dbg tab m f it_l it_r x buf out) := by
  induction f generalizing it_l it_r x buf out with
  | zero => omega
  | succ f ih =>
    unfold pairwise_intersection_loop
    split
    · rename_i h
      obtain ⟨hl, hr⟩ := Bool.and_eq_true_iff.mp h
      have hl' := (It.has_next_iff _).mp hl
      have hr' := (It.has_next_iff _).mp hr
      refine Ends.bind' (It.id_ends ..) (fun i_l e_l => Ends.bind' (It.id_ends ..)
        (fun i_r e_r => ?_))
      have il := It.id_lt e_l hl
      have ir := It.id_lt e_r hr
      have ul : u16 i_l = i_l := Nat.mod_eq_of_lt il
      have ur : u16 i_r = i_r := Nat.mod_eq_of_lt ir
      have hf := hf i_l i_r e_l e_r
      have hf1 : 1 ≤ f := by
        cases side <;> simp only [if_true, Bool.false_eq_true, if_false] at hf <;> omega
      dsimp only
      rw [ul, ur]
      split
      · refine Ends.bind (intersect_chunks_ends ..) (fun r => Ends.bind' (It.next_ends ..)
          (fun l' h1 => Ends.bind' (It.next_ends ..) (fun r' h2 => ?_)))
        obtain ⟨_, _⟩ := It.next_pos h1
        obtain ⟨_, _⟩ := It.next_pos h2
        refine ih _ _ _ _ _ hf1 (fun a b _ _ => ?_)
        cases side
        · simp only [Bool.false_eq_true, if_false] at hf ⊢
          split <;> omega
        · simp only [if_true] at hf ⊢
          split <;> omega
      · split
        · rename_i hlt
          refine Ends.bind' (It.advance_ends ..) (fun l' h1 => ?_)
          obtain ⟨_, _, h3, h4⟩ := It.advance_loop_post _ _ _ _ _ h1
          have := h3 _ e_l hl hlt
          refine ih _ _ _ _ _ hf1 (fun a b ea eb => ?_)
          have ha := h4 (by omega) a ea
          rw [e_r] at eb
          cases eb
          cases side
          · simp only [Bool.false_eq_true, if_false] at hf ⊢
            rw [if_pos hlt] at hf
            rw [if_neg (by omega)]
            omega
          · simp only [if_true] at hf ⊢
            split <;> omega
        · have hlt : i_r < i_l := by omega
          refine Ends.bind' (It.advance_ends ..) (fun l' h1 => ?_)
          obtain ⟨_, _, h3, h4⟩ := It.advance_loop_post _ _ _ _ _ h1
          have := h3 _ e_r hr (by omega)
          refine ih _ _ _ _ _ hf1 (fun a b ea eb => ?_)
          have hb := h4 (by omega) b eb
          rw [e_l] at ea
          cases ea
          cases side
          · simp only [Bool.false_eq_true, if_false] at hf ⊢
            split <;> omega
          · simp only [if_true] at hf ⊢
            rw [if_pos hlt] at hf
            rw [if_neg (by omega)]
            omega
    · exact Ends.ok _

/-! ## The main loop of the pairwise union -/

theorem pairwise_union_loop_rounds (dbg : Bool) (m : Mem) (f : Nat) (it_l it_r : It) (s : UScratch)
    (buf : List Nat) (out : Nat) (hl : it_l.begin_ < it_l.end_) (hr : it_r.begin_ < it_r.end_)
    (hf : (it_l.end_ - it_l.begin_) + (it_r.end_ - it_r.begin_) ≤ f + 1) :
    Ends (pairwise_union_loop dbg m f it_l it_r s buf out) := by
  induction f generalizing it_l it_r s buf out with
  | zero => omega
  | succ f ih =>
    have go : ∀ (l r : It) (s : UScratch) (buf : List Nat) (out : Nat),
        (l.end_ - l.begin_) + (r.end_ - r.begin_) ≤ f + 1 →
        Ends (if (!l.has_next || !r.has_next) = true then
          (return (l, r, out, s, buf) : Res (It × It × Nat × UScratch × List Nat))
          else pairwise_union_loop dbg m f l r s buf out) := by
      intro l r s buf out h
      split
      · exact Ends.pure _
      · rename_i hn
        have hn : l.has_next = true ∧ r.has_next = true := by
          revert hn
          cases l.has_next <;> cases r.has_next <;> simp
        exact ih _ _ _ _ _ ((It.has_next_iff _).mp hn.1) ((It.has_next_iff _).mp hn.2) h
    unfold pairwise_union_loop
    refine Ends.bind (It.id_ends ..) (fun i_l => Ends.bind (It.id_ends ..) (fun i_r => ?_))
    dsimp only
    split
    · refine Ends.bind (union_chunks_ends ..) (fun q => Ends.bind' (It.next_ends ..) (fun l h1 =>
        Ends.bind' (It.next_ends ..) (fun r h2 => ?_)))
      obtain ⟨_, _⟩ := It.next_pos h1
      obtain ⟨_, _⟩ := It.next_pos h2
      exact go _ _ _ _ _ (by omega)
    · split
      · refine Ends.bind (decode_chunk_ends ..) (fun q => Ends.bind' (It.next_ends ..) (fun l h1 => ?_))
        obtain ⟨_, _⟩ := It.next_pos h1
        cases hn : l.has_next with
        | false => exact Ends.pure _
        | true => exact ih _ _ _ _ _ ((It.has_next_iff _).mp hn) hr (by omega)
      · refine Ends.bind (decode_chunk_ends ..) (fun q => Ends.bind' (It.next_ends ..) (fun r h2 => ?_))
        obtain ⟨_, _⟩ := It.next_pos h2
        cases hn : r.has_next with
        | false => exact Ends.pure _
        | true => exact ih _ _ _ _ _ hl ((It.has_next_iff _).mp hn) (by omega)

/-! ## The union of many sequences goes through every slice once -/

theorem mem_dropHead_rounds {cs : List Chk} {h i : Nat} (hw : ChunksWF cs) (hlo : h ≤ headId cs) :
    i ∈ (dropHead h cs).map Chk.id ↔ i ∈ cs.map Chk.id ∧ h < i := by
  cases cs with
  | nil => simp [dropHead]
  | cons c cs =>
    have hlt : ∀ i, i ∈ cs.map Chk.id → c.id < i := by
      intro i hi
      obtain ⟨d, hd, rfl⟩ := List.mem_map.mp hi
      exact hw.head_lt d hd
    have hlo : h ≤ c.id := hlo
    have hd : dropHead h (c :: cs) = if c.id = h then cs else c :: cs := rfl
    rw [hd]
    split
    · rename_i e
      rw [List.map_cons, List.mem_cons]
      constructor
      · intro hi
        exact ⟨.inr hi, by have := hlt i hi; omega⟩
      · rintro ⟨rfl | hi, hh⟩
        · omega
        · exact hi
    · rename_i e
      refine ⟨fun hi => ⟨hi, ?_⟩, fun hi => hi.1⟩
      rw [List.map_cons, List.mem_cons] at hi
      rcases hi with rfl | hi
      · omega
      · have := hlt i hi
        omega

theorem ids_split {css : List (List Chk)} {header : Nat} {D : List Nat}
    (hw : ∀ cs ∈ css, ChunksWF cs) (hlo : ∀ cs ∈ css, header ≤ headId cs)
    (hex : ∃ cs ∈ css, headId cs = header) (hh : header < 65536)
    (hD : Enumerates D (fun i => ∃ cs ∈ css, i ∈ cs.map Chk.id)) :
    ∃ D', D = header :: D' ∧
      Enumerates D' (fun i => ∃ cs ∈ css.map (dropHead header), i ∈ cs.map Chk.id) := by
  refine ⟨D.filter (fun i => decide (header < i)), ?_, hD.1.filter _, ?_⟩
  · refine sorted_ext hD.1 ?_ (fun i => ?_)
    · refine List.pairwise_cons.mpr ⟨fun a ha => ?_, hD.1.filter _⟩
      exact of_decide_eq_true (List.mem_filter.mp ha).2
    · rw [List.mem_cons, List.mem_filter]
      constructor
      · intro hi
        obtain ⟨cs, hc, hm⟩ := (hD.2 i).mp hi
        by_cases e : i = header
        · exact .inl e
        · refine .inr ⟨hi, decide_eq_true ?_⟩
          have g := hlo cs hc
          cases cs with
          | nil => cases hm
          | cons c cs =>
            have g : header ≤ c.id := g
            rw [List.map_cons, List.mem_cons] at hm
            rcases hm with rfl | hm
            · omega
            · obtain ⟨d, hd, rfl⟩ := List.mem_map.mp hm
              have := (hw _ hc).head_lt d hd
              omega
      · rintro (rfl | hi)
        · obtain ⟨cs, hc, e⟩ := hex
          refine (hD.2 _).mpr ⟨cs, hc, ?_⟩
          cases cs with
          | nil => simp only [headId] at e; omega
          | cons c cs =>
            have e : c.id = i := e
            rw [List.map_cons, e]
            exact List.mem_cons_self ..
        · exact hi.1
  · intro i
    rw [List.mem_filter, hD.2 i, decide_eq_true_iff]
    constructor
    · rintro ⟨⟨cs, hc, hm⟩, hi⟩
      exact ⟨_, List.mem_map_of_mem hc, (mem_dropHead_rounds (hw cs hc) (hlo cs hc)).mpr ⟨hm, hi⟩⟩
    · rintro ⟨_, hc', hm⟩
      obtain ⟨cs, hc, rfl⟩ := List.mem_map.mp hc'
      obtain ⟨h1, h2⟩ := (mem_dropHead_rounds (hw cs hc) (hlo cs hc)).mp hm
      exact ⟨⟨cs, hc, h1⟩, h2⟩

theorem union_many_loop_less {dbg : Bool} {pad : Nat} {m : Mem} (f : Nat) {its : List It}
    {css : List (List Chk)} {header out : Nat} {s : MScratch} {buf Z D : List Nat}
    (h : ItsOn pad m its css) (hs : s.Ok) (hmin : IsMin header 65536 css)
    (hZ : Enumerates Z (fun v => ∃ cs ∈ css, v ∈ seqElems cs))
    (hcap : out + Z.length ≤ buf.length)
    (hD : Enumerates D (fun i => ∃ cs ∈ css, i ∈ cs.map Chk.id)) :
    (f ≤ D.length → union_many_loop dbg m f its header s buf out = .error .diverge) ∧
      (D.length < f → Ends (union_many_loop dbg m f its header s buf out)) := by
  induction f generalizing its css header out s buf Z D with
  | zero => exact ⟨fun _ => rfl, fun h => absurd h (Nat.not_lt_zero _)⟩
  | succ f ih =>
    by_cases hh : header < 65536
    · have hw := h.wf
      have hlo := hmin.2.1
      have hex : ∃ cs ∈ css, headId cs = header := by
        rcases hmin.2.2 with h | h
        · omega
        · exact h
      obtain ⟨D', rfl, hD'⟩ := ids_split hw hlo hex hh hD
      obtain ⟨s1, e1, hs1, b1⟩ := merge_loop_spec (dbg := dbg) hh h hs hex
      let P : Nat → Bool := fun x => css.any (headHas header x)
      let U := (List.range 65536).filter P
      let Z2 := Z.filter (fun v => decide (header < v / 65536))
      have hsplit : Z = U.map (header * 65536 + ·) ++ Z2 := (union_slice_split h hh hlo hZ).1
      have hZ2 : Enumerates Z2 (fun v => ∃ cs ∈ css.map (dropHead header), v ∈ seqElems cs) :=
        (union_slice_split h hh hlo hZ).2
      have hlen := congrArg List.length hsplit
      rw [List.length_append, List.length_map] at hlen
      obtain ⟨o1, e2, w1⟩ := decode_bitmap_spec (p := out) (out := buf) (b := header * 65536)
        (b1.bitsAt (n := 1024) (by rw [hs1.1.1]; exact Nat.le_refl _)) (by omega)
        (by show out + U.length ≤ _; omega) (by omega)
      have l1 := w1.length
      obtain ⟨its', next, e3, h', hmin'⟩ := step_loop_spec hh 65536 h
      obtain ⟨r1, r2⟩ := ih (out := out + U.length) (s := s1) (buf := o1) h' hs1 hmin' hZ2 (by omega) hD'
      have e2' : decode_bitmap (vecWords s1.bitmap) 1024 (header * 65536) buf out
          = .ok (U.length, o1) := e2
      have key : union_many_loop dbg m (f + 1) its header s buf out
          = union_many_loop dbg m f its' next s1 o1 (out + U.length) := by
        rw [union_many_loop, if_pos hh, u32_lt (by omega)]
        simp only [e1, ok_bind]
        rw [e2']
        simp only [ok_bind, e3]
      rw [key, List.length_cons]
      exact ⟨fun hf => r1 (by omega), fun hf => r2 (by omega)⟩
    · have : D = [] := by
        rw [List.eq_nil_iff_forall_not_mem]
        intro i hi
        obtain ⟨cs, hc, hm⟩ := (hD.2 i).mp hi
        have g := hmin.2.1 cs hc
        cases cs with
        | nil => cases hm
        | cons c cs =>
          have := (h.wf _ hc).head.1
          simp only [headId] at g
          omega
      subst this
      refine ⟨fun hf => absurd hf (Nat.not_succ_le_zero _), fun _ => ?_⟩
      rw [union_many_loop, if_neg hh]
      exact Ends.ok _

/-! ## Lists whose slices alternate -/

/-- `x₁ < y₁ < x₂ < y₂ < …` -/
def Alternating : List Nat → List Nat → Prop
  | [], [] => True
  | x :: X, y :: Y => x < y ∧ (∀ x', X.head? = some x' → y < x') ∧ Alternating X Y
  | _, _ => False

theorem candidate_for_first {m : Mem} {it0 it1 : It} {x c : Nat} {A B : List Nat} (f : Nat)
    (h0 : IdOn m it0 A) (s0 : A.Pairwise (· < ·)) (hA : idsFrom c A = x :: B) (hx : x ≠ c) :
    ∃ it0', candidate_for m (f + 1) [it0, it1] c 0 = .ok ([it0', it1], x, 0) ∧ IdOn m it0' (x :: B) := by
  obtain ⟨it0', e, h⟩ := h0.skip_to_value (lb := c) s0
  rw [hA] at h
  refine ⟨it0', ?_, h⟩
  have e1 : rdIt [it0, it1] 0 = .ok it0 := rfl
  have e2 : it0'.id m = .ok x := h.id
  rw [candidate_for, if_pos (by simp)]
  simp only [e1, ok_bind, e, e2]
  rw [if_pos hx]
  rfl

theorem candidate_for_last {m : Mem} {it0 it1 : It} {c : Nat} {A : List Nat} (f : Nat)
    (h0 : IdOn m it0 A) (s0 : A.Pairwise (· < ·)) (hA : idsFrom c A = []) (hx : c < 65536) :
    ∃ it0', candidate_for m (f + 1) [it0, it1] c 0 = .ok ([it0', it1], 65536, 0) := by
  obtain ⟨it0', e, h⟩ := h0.skip_to_value (lb := c) s0
  rw [hA] at h
  refine ⟨it0', ?_⟩
  have e1 : rdIt [it0, it1] 0 = .ok it0 := rfl
  have e2 : it0'.id m = .ok 65536 := h.id
  rw [candidate_for, if_pos (by simp)]
  simp only [e1, ok_bind, e, e2]
  rw [if_pos (by omega)]
  rfl

theorem candidate_for_second {m : Mem} {it0 it1 : It} {y c : Nat} {A B : List Nat} (f : Nat)
    (h1 : IdOn m it1 A) (s1 : A.Pairwise (· < ·)) (hA : idsFrom c A = y :: B) (hx : y ≠ c) :
    ∃ it1', candidate_for m (f + 1) [it0, it1] c 1 = .ok ([it0, it1'], y, 0) ∧ IdOn m it1' (y :: B) := by
  obtain ⟨it1', e, h⟩ := h1.skip_to_value (lb := c) s1
  rw [hA] at h
  refine ⟨it1', ?_, h⟩
  have e1 : rdIt [it0, it1] 1 = .ok it1 := rfl
  have e2 : it1'.id m = .ok y := h.id
  rw [candidate_for, if_pos (by simp)]
  simp only [e1, ok_bind, e, e2]
  rw [if_pos hx]
  rfl

theorem candidate_while_alternating {m : Mem} (A : List Nat) {x y : Nat} {it0 it1 : It}
    {B ids1 : List Nat} (i f : Nat) (headers : List Nat) (n : Nat)
    (h0 : IdOn m it0 (x :: A)) (h1 : IdOn m it1 ids1) (s0 : (x :: A).Pairwise (· < ·))
    (s1 : ids1.Pairwise (· < ·)) (hd : idsFrom x ids1 = y :: B) (hy : y < 65536)
    (hB : ∀ b ∈ B, b < 65536) (halt : Alternating (x :: A) (y :: B)) (hi : i = 0 ∨ i = 1)
    (hf : f ≤ 2 * (A.length + 1)) :
    candidate_while m f [it0, it1] x i headers n = .error .diverge := by
  induction A generalizing x y it0 it1 B ids1 i f headers n with
  | nil =>
    obtain ⟨hxy, -, hr⟩ := halt
    match f, hf with
    | 0, _ => rfl
    | f + 1, hf =>
      obtain ⟨it0', it1', e, k0, k1⟩ : ∃ it0' it1', candidate_for m 3 [it0, it1] x i
          = .ok ([it0', it1'], y, 0) ∧ IdOn m it0' [x] ∧ IdOn m it1' (y :: B) := by
        rcases hi with rfl | rfl
        · obtain ⟨it0', e, h⟩ := h0.skip_to_value (lb := x) s0
          have hA : idsFrom x [x] = [x] := by simp [idsFrom]
          rw [hA] at h
          obtain ⟨it1', e', h'⟩ := candidate_for_second (it0 := it0') 1 h1 s1 hd (by omega)
          refine ⟨it0', it1', ?_, h, h'⟩
          have e1 : rdIt [it0, it1] 0 = .ok it0 := rfl
          have e2 : it0'.id m = .ok x := h.id
          rw [candidate_for, if_pos (by simp)]
          simp only [e1, ok_bind, e, e2]
          rw [if_neg (by simp)]
          exact e'
        · obtain ⟨it1', e', h'⟩ := candidate_for_second (it0 := it0) 2 h1 s1 hd (by omega)
          exact ⟨it0, it1', e', h0, h'⟩
      rw [candidate_while, if_pos (by omega)]
      have e' : candidate_for m ([it0, it1].length + 1) [it0, it1] x i = .ok ([it0', it1'], y, 0) := e
      simp only [e', ok_bind]
      rw [if_neg (by simp)]
      match f, hf with
      | 0, _ => rfl
      | f + 1, hf =>
        obtain ⟨it0'', e2⟩ := candidate_for_last (it1 := it1') (c := y) 2 k0 (by simp)
          (by simp [idsFrom, hxy]) hy
        rw [candidate_while, if_pos hy]
        have e2' : candidate_for m ([it0', it1'].length + 1) [it0', it1'] y 0
          = .ok ([it0'', it1'], 65536, 0) := e2
        simp only [e2', ok_bind]
        rw [if_neg (by simp)]
        have : f = 0 := by simp at hf; omega
        subst this
        rfl
  | cons x' A ih =>
    obtain ⟨hxy, hyx, hr⟩ := halt
    have hyx := hyx x' rfl
    match f, hf with
    | 0, _ => rfl
    | f + 1, hf =>
      obtain ⟨it0', it1', e, k0, k1⟩ : ∃ it0' it1', candidate_for m 3 [it0, it1] x i
          = .ok ([it0', it1'], y, 0) ∧ IdOn m it0' (x :: x' :: A) ∧ IdOn m it1' (y :: B) := by
        rcases hi with rfl | rfl
        · obtain ⟨it0', e, h⟩ := h0.skip_to_value (lb := x) s0
          have hA : idsFrom x (x :: x' :: A) = x :: x' :: A := by simp [idsFrom]
          rw [hA] at h
          obtain ⟨it1', e', h'⟩ := candidate_for_second (it0 := it0') 1 h1 s1 hd (by omega)
          refine ⟨it0', it1', ?_, h, h'⟩
          have e1 : rdIt [it0, it1] 0 = .ok it0 := rfl
          have e2 : it0'.id m = .ok x := h.id
          rw [candidate_for, if_pos (by simp)]
          simp only [e1, ok_bind, e, e2]
          rw [if_neg (by simp)]
          exact e'
        · obtain ⟨it1', e', h'⟩ := candidate_for_second (it0 := it0) 2 h1 s1 hd (by omega)
          exact ⟨it0, it1', e', h0, h'⟩
      rw [candidate_while, if_pos (by omega)]
      have e' : candidate_for m ([it0, it1].length + 1) [it0, it1] x i = .ok ([it0', it1'], y, 0) := e
      simp only [e', ok_bind]
      rw [if_neg (by simp)]
      match f, hf with
      | 0, _ => rfl
      | f + 1, hf =>
        have hA : idsFrom y (x :: x' :: A) = x' :: A := by
          simp only [idsFrom, List.dropWhile_cons]
          rw [if_pos (by simp; omega), if_neg (by simp; omega)]
        obtain ⟨it0'', e2, k2⟩ := candidate_for_first (it1 := it1') (c := y) 2 k0 s0 hA (by omega)
        rw [candidate_while, if_pos hy]
        have e2' : candidate_for m ([it0', it1'].length + 1) [it0', it1'] y 0
          = .ok ([it0'', it1'], x', 0) := e2
        simp only [e2', ok_bind]
        rw [if_neg (by simp)]
        have sB : (y :: B).Pairwise (· < ·) := by rw [← hd]; exact idsFrom_sorted s1
        match B, hr with
        | y' :: B, hr =>
          refine ih 0 f headers n k2 k1 (List.pairwise_cons.mp s0).2 sB ?_ (hB y' (by simp))
            (fun b hb => hB b (by simp [hb])) hr (.inl rfl) (by simp at hf ⊢; omega)
          have hxy' : x' < y' := hr.1
          simp only [idsFrom, List.dropWhile_cons]
          rw [if_pos (by simp; omega), if_neg (by simp; omega)]

end Sliced
