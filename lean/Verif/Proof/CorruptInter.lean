import Verif.Proof.CorruptMany
/-!
# Memory of any content: intersection of several sequences

The first pass collects the ids that all sequences have, the second one goes through the sequences again.
Nothing is known about the order of the ids.  `Hits` says that the second pass finds an id at least as
large before the end of the sequence.
-/
namespace Sliced

variable {m : Mem} {s : SSeq} {g : Nat} {it : It} {dbg : Bool}

/-- the ids `hs` occur among the headers of `s` from slice `p` on, at places that do not decrease -/
def Hits (m : Mem) (s : SSeq) : Nat → List Nat → Prop
  | _, [] => True
  | p, h :: hs => ∃ q, p ≤ q ∧ q < s.chunks ∧ rd16 m (s.header + 8 * q) = .ok h ∧ Hits m s q hs

theorem Hits.mono {p p' : Nat} (hp : p' ≤ p) : ∀ {hs : List Nat}, Hits m s p hs → Hits m s p' hs
  | [], _ => trivial
  | _ :: _, ⟨q, h1, h2⟩ => ⟨q, Nat.le_trans hp h1, h2⟩

theorem Hits.tail {p h : Nat} {hs : List Nat} : Hits m s p (h :: hs) → Hits m s p hs
  | ⟨_, h1, _, _, h4⟩ => h4.mono h1

/-- the iterators belong to the sequences, one to one -/
structure Its (m : Mem) (ss : List SSeq) (g : Nat) (its : List It) : Prop where
  len : its.length = ss.length
  mov : ∀ (k : Nat) (it : It) (s : SSeq), its[k]? = some it → ss[k]? = some s → Moving s g it

variable {ss : List SSeq}

theorem Its.get {its : List It} (h : Its m ss g its) {k : Nat} (hk : k < its.length) :
    ∃ it s, its[k]? = some it ∧ ss[k]? = some s ∧ s ∈ ss ∧ Moving s g it := by
  have hk' : k < ss.length := by rw [← h.len]; exact hk
  exact ⟨its[k], ss[k], List.getElem?_eq_getElem hk, List.getElem?_eq_getElem hk', List.getElem_mem hk',
    h.mov k _ _ (List.getElem?_eq_getElem hk) (List.getElem?_eq_getElem hk')⟩

theorem Its.set {its : List It} (h : Its m ss g its) {k : Nat} {it' : It}
    (hm : ∀ s, ss[k]? = some s → Moving s g it') : Its m ss g (its.set k it') := by
  refine ⟨by rw [List.length_set]; exact h.len, fun j it s h1 h2 => ?_⟩
  by_cases hjk : k = j
  · subst hjk
    have hk : k < its.length := by
      have := (List.getElem?_eq_some_iff.mp h1).1
      rwa [List.length_set] at this
    rw [List.getElem?_set_self hk] at h1
    cases h1
    exact hm s h2
  · rw [List.getElem?_set_ne hjk] at h1
    exact h.mov j it s h1 h2

theorem rdIt_of {v : List It} {i : Nat} {x : It} (h : v[i]? = some x) : rdIt v i = .ok x := by
  unfold rdIt
  rw [h]

theorem set_get {its : List It} {k j : Nat} {it' it'' : It} (h : (its.set k it')[j]? = some it'') :
    (j = k ∧ it'' = it') ∨ (j ≠ k ∧ its[j]? = some it'') := by
  by_cases hjk : k = j
  · subst hjk
    have hk : k < its.length := by
      have := (List.getElem?_eq_some_iff.mp h).1
      rwa [List.length_set] at this
    rw [List.getElem?_set_self hk] at h
    cases h
    exact Or.inl ⟨rfl, rfl⟩
  · rw [List.getElem?_set_ne hjk] at h
    exact Or.inr ⟨fun e => hjk e.symm, h⟩

theorem runCandidateFor (hg : 134217728 ≤ g) (hr : ∀ s ∈ ss, Room m s g) {candidate : Nat} :
    ∀ (f : Nat) (its : List It) (i : Nat), Its m ss g its → its.length - i < f → i ≤ its.length →
    (∀ k it, k < i → its[k]? = some it → it.id m = .ok candidate) →
    Runs (fun q => Its m ss g q.1 ∧ q.1.length = its.length ∧
      (∀ (k : Nat) (it it' : It), its[k]? = some it → q.1[k]? = some it' → it.begin_ ≤ it'.begin_) ∧
      (q.2.2 = 0 ∨ (q.2.2 = its.length ∧ q.2.1 = candidate ∧
        ∀ (k : Nat) (it : It), q.1[k]? = some it → it.id m = .ok candidate)))
      (candidate_for m f its candidate i)
  | 0, _, _, _, hf, _, _ => absurd hf (Nat.not_lt_zero _)
  | f + 1, its, i, h, hf, hi, hp => by
    unfold candidate_for
    split
    · next hlt =>
      obtain ⟨it, s, e1, e2, e3, hm⟩ := h.get hlt
      rw [rdIt_of e1, ok_bind]
      refine (hm.skip (hr s e3) hg candidate).bind ?_
      rintro it' ⟨h1, h2, -⟩
      simp only
      have hset : Its m ss g (its.set i it') := h.set (fun s' hs' => by
        rw [e2] at hs'
        cases hs'
        exact h1)
      have hmono : ∀ (k : Nat) (a b : It), its[k]? = some a → (its.set i it')[k]? = some b →
          a.begin_ ≤ b.begin_ := by
        intro k a b ha hb
        rcases set_get hb with ⟨rfl, rfl⟩ | ⟨-, hb⟩
        · rw [e1] at ha
          cases ha
          exact h2
        · rw [ha] at hb
          cases hb
          exact Nat.le_refl _
      obtain ⟨val, ev, -⟩ := runId (hr s e3) h1.toItOf
      rw [ev, ok_bind]
      split
      · exact Runs.pure ⟨hset, List.length_set, hmono, Or.inl rfl⟩
      · next hne =>
        have hv : val = candidate := Decidable.not_not.mp hne
        subst hv
        refine (runCandidateFor hg hr f (its.set i it') (i + 1) hset (by rw [List.length_set]; omega)
          (by rw [List.length_set]; omega) ?_).mono ?_
        · intro k a hk ha
          rcases set_get ha with ⟨-, rfl⟩ | ⟨hne', ha⟩
          · exact ev
          · exact hp k a (by omega) ha
        · rintro ⟨its', c', i'⟩ ⟨q1, q2, q3, q4⟩
          simp only [List.length_set] at q1 q2 q3 q4 ⊢
          refine ⟨q1, q2, fun k a b ha hb => ?_, q4⟩
          have hk := (List.getElem?_eq_some_iff.mp ha).1
          have hk' : k < (its.set i it').length := by rw [List.length_set]; exact hk
          have hx := List.getElem?_eq_getElem hk'
          exact Nat.le_trans (hmono k a _ ha hx) (q3 k _ b hx hb)
    · next hge =>
      refine Runs.pure ⟨h, rfl, fun k a b ha hb => ?_, Or.inr ⟨?_, rfl, fun k it hk => ?_⟩⟩
      · rw [ha] at hb
        cases hb
        exact Nat.le_refl _
      · simp only; omega
      · have := (List.getElem?_eq_some_iff.mp hk).1
        exact hp k it (by simp only at this; omega) hk

/-- what the first pass leaves: the ids `hs` behind the `num` ids that were there before -/
structure Collected (m : Mem) (ss : List SSeq) (its : List It) (headers : List Nat) (num room : Nat)
    (q : Nat × List Nat) (hs : List Nat) : Prop where
  cnt : q.1 = num + hs.length
  room : hs.length ≤ room
  len : q.2.length = headers.length
  old : ∀ j, j < num → q.2[j]? = headers[j]?
  new : ∀ j, j < hs.length → q.2[num + j]? = hs[j]?
  hit : ∀ (k : Nat) (it : It) (s : SSeq), its[k]? = some it → ss[k]? = some s → Hits m s it.begin_ hs
  low : ∀ h ∈ hs, h < 65536

theorem runCandidateWhile (hg : 134217728 ≤ g) (hr : ∀ s ∈ ss, Room m s g) {s0 : SSeq}
    (h0 : ss[0]? = some s0) : ∀ (f : Nat) (its : List It) (candidate i : Nat) (headers : List Nat)
    (num : Nat), Its m ss g its → i ≤ its.length →
    (∀ k it, k < i → its[k]? = some it → it.id m = .ok candidate) →
    (∀ it0, its[0]? = some it0 → num + (s0.chunks - it0.begin_) ≤ headers.length) →
    candidate_while m f its candidate i headers num = .error .diverge ∨
    Runs (fun q => ∃ hs, Collected m ss its headers num
      (match its[0]? with | some it0 => s0.chunks - it0.begin_ | none => 0) q hs)
      (candidate_while m f its candidate i headers num)
  | 0, _, _, _, _, _, _, _, _, _ => Or.inl rfl
  | f + 1, its, candidate, i, headers, num, h, hi, hp, hc => by
    unfold candidate_while
    split
    · next hlt =>
      obtain ⟨⟨its', c', i'⟩, e, q1, q2, q3, q4⟩ := runCandidateFor hg hr (candidate := candidate)
        (its.length + 1) its i h (by omega) hi hp
      rw [e, ok_bind]
      simp only at q1 q2 q3 q4 ⊢
      have hlen : 0 < its.length := by
        rw [h.len]
        exact (List.getElem?_eq_some_iff.mp h0).1
      obtain ⟨it0, s', a1, a2, a3, a4⟩ := h.get hlen
      obtain ⟨it0', s'', b1, b2, b3, b4⟩ := q1.get (by rw [q2]; exact hlen)
      rw [h0] at a2 b2
      cases a2
      cases b2
      have hle := q3 0 _ _ a1 b1
      have hc0 := hc _ a1
      have le := b4.le
      have lift : ∀ {q : Nat × List Nat} {hs : List Nat}, (∀ (k : Nat) (it : It) (s : SSeq),
          its'[k]? = some it → ss[k]? = some s → Hits m s it.begin_ hs) →
          ∀ (k : Nat) (it : It) (s : SSeq), its[k]? = some it → ss[k]? = some s → Hits m s it.begin_ hs := by
        intro _ hs hh k it s h1 h2
        have hk := (List.getElem?_eq_some_iff.mp h1).1
        have hk' : k < its'.length := by rw [q2]; exact hk
        have hx := List.getElem?_eq_getElem hk'
        exact (hh k _ s hx h2).mono (q3 k it _ h1 hx)
      split
      · next hi' =>
        have hall : c' = candidate ∧ ∀ (k : Nat) (it : It), its'[k]? = some it → it.id m = .ok candidate := by
          rcases q4 with q4 | ⟨-, q4⟩
          · omega
          · exact q4
        obtain ⟨rfl, hall⟩ := hall
        have hb := b4.lt_of_id (hall 0 _ b1) hlt
        have hnum : num < headers.length := by omega
        have hu : u16 c' = c' := Nat.mod_eq_of_lt hlt
        obtain ⟨hd, eh, hd1, hd2⟩ := runWr (u16 c') hnum
        rw [eh, ok_bind, rdIt_of b1, ok_bind]
        obtain ⟨it1, en, n1, n2⟩ := b4.next (hr s0 a3) (by omega) hb
        rw [en, ok_bind]
        obtain ⟨cc, ec, -⟩ := runId (hr s0 a3) n1.toItOf
        rw [ec, ok_bind]
        have hset : Its m ss g (its'.set 0 it1) := q1.set (fun s' hs' => by
          rw [h0] at hs'
          cases hs'
          exact n1)
        have hg0 : (its'.set 0 it1)[0]? = some it1 := List.getElem?_set_self (by omega)
        rcases runCandidateWhile hg hr h0 f (its'.set 0 it1) cc 1 hd (num + 1) hset
          (by rw [List.length_set]; omega) (by
            intro k it hk hit
            obtain rfl : k = 0 := by omega
            rw [hg0] at hit
            cases hit
            exact ec) (by
            intro it hit
            rw [hg0] at hit
            cases hit
            omega) with hh | ⟨q, eq, hs, hq⟩
        · exact Or.inl hh
        · refine Or.inr ⟨q, eq, c' :: hs, ?_⟩
          simp only [hg0] at hq
          simp only [a1]
          have hroom := hq.room
          refine ⟨?_, ?_, ?_, ?_, ?_, ?_, ?_⟩
          · rw [hq.cnt, List.length_cons]; omega
          · rw [List.length_cons]; omega
          · rw [hq.len, hd1]
          · intro j hj
            rw [hq.old j (by omega), hd2, List.getElem?_set_ne (by omega)]
          · intro j hj
            cases j with
            | zero => rw [Nat.add_zero, hq.old num (by omega), hd2, List.getElem?_set_self hnum, hu]; rfl
            | succ j =>
              rw [List.length_cons] at hj
              rw [show num + (j + 1) = num + 1 + j by omega, hq.new j (by omega)]
              rfl
          · refine lift (q := q) (fun k it s h1 h2 => ?_)
            have hm := q1.mov k it s h1 h2
            have hid := hall k it h1
            have hkb := hm.lt_of_id hid hlt
            refine ⟨it.begin_, Nat.le_refl _, hkb, ?_, ?_⟩
            · have hn : it.has_next = true := It.has_next_of_id hid hlt
              unfold It.id at hid
              rw [if_pos hn, hm.hdr] at hid
              exact hid
            · have hk' : k < (its'.set 0 it1).length := by
                rw [List.length_set]
                exact (List.getElem?_eq_some_iff.mp h1).1
              have hx := List.getElem?_eq_getElem hk'
              refine (hq.hit k _ s hx h2).mono ?_
              rcases set_get hx with ⟨rfl, e⟩ | ⟨-, e⟩
              · rw [e, n2]
                rw [b1] at h1
                cases h1
                omega
              · rw [h1] at e
                cases e
                exact Nat.le_refl _
          · intro x hx
            rcases List.mem_cons.mp hx with rfl | hx
            · exact hlt
            · exact hq.low x hx
      · next hi' =>
        have hz : i' = 0 := by
          rcases q4 with q4 | ⟨q4, -⟩
          · exact q4
          · omega
        subst hz
        rcases runCandidateWhile hg hr h0 f its' c' 0 headers num q1 (Nat.zero_le _)
          (fun k it hk => absurd hk (Nat.not_lt_zero _)) (by
            intro it hit
            rw [b1] at hit
            cases hit
            omega) with hh | ⟨q, eq, hs, hq⟩
        · exact Or.inl hh
        · refine Or.inr ⟨q, eq, hs, ?_⟩
          simp only [b1] at hq
          simp only [a1]
          have := hq.room
          exact ⟨hq.cnt, by omega, hq.len, hq.old, hq.new, lift (q := q) hq.hit, hq.low⟩
    · exact Or.inr (Runs.pure ⟨[], rfl, Nat.zero_le _, rfl, fun _ _ => rfl,
        fun j hj => absurd hj (Nat.not_lt_zero _), fun _ _ _ _ _ => trivial, fun _ h => nomatch h⟩)

/-! ## the second pass -/

/-- the ids of the slices do not decrease -/
def Rising (m : Mem) (s : SSeq) : Prop :=
  ∀ i j x y, i ≤ j → j < s.chunks → rd16 m (s.header + 8 * i) = .ok x →
    rd16 m (s.header + 8 * j) = .ok y → x ≤ y

/-- the conditions under which `intersection` runs through -/
def Fine (m : Mem) (dbg : Bool) (ss : List SSeq) : Prop :=
  (dbg = false ∨ ∀ s ∈ ss, Rising m s) ∧ ∀ s ∈ ss, Legal m s

theorem safeCassert {L : Prop} {c : Bool} (h : L → dbg = false ∨ c = true) :
    Safe L dbg (fun _ => True) (cassert dbg c) := by
  cases c with
  | true => exact Runs.safe (Runs.cassert rfl)
  | false =>
    cases dbg with
    | false => exact Runs.safe ⟨(), rfl, trivial⟩
    | true =>
      refine Or.inr ⟨fun hl => ?_, rfl⟩
      rcases h hl with h | h <;> cases h

theorem advanceHit (hr : Room m s g) (hg : 65536 ≤ g) {q x : Nat} (hq : q < s.chunks)
    (hx : rd16 m (s.header + 8 * q) = .ok x) : ∀ (f : Nat) (it it' : It), ItOf s g it → it.begin_ ≤ q →
    It.advance_loop m x f it = .ok it' → it'.begin_ ≤ q
  | 0, _, _, _, _, h => nomatch h
  | f + 1, it, it', hi, hle, h => by
    unfold It.advance_loop at h
    obtain ⟨i, ei, h⟩ := bind_ok h
    split at h
    · next hc =>
      obtain ⟨it1, h1, h⟩ := bind_ok h
      have hn : it.has_next = true := by
        simp only [Bool.and_eq_true] at hc
        exact hc.2
      have hlt : i < x := by
        simp only [Bool.and_eq_true, decide_eq_true_eq] at hc
        exact hc.1
      have hne : it.begin_ ≠ q := by
        rintro rfl
        unfold It.id at ei
        rw [if_pos hn, hi.hdr, hx] at ei
        cases ei
        omega
      obtain ⟨it2, e2, h2, h3⟩ := runNext hr hi hg (hi.next_lt hn)
      rw [h1] at e2
      cases e2
      exact advanceHit hr hg hq hx f it1 it' h2 (by omega) h
    · cases h
      exact hle

theorem Moving.advanceTo (hr : Room m s g) (hg : 65536 ≤ g) (h : Moving s g it) {x : Nat} {hs : List Nat}
    (hh : Hits m s it.begin_ (x :: hs)) :
    Runs (fun it' => Moving s g it' ∧ it'.begin_ < s.chunks ∧ Hits m s it'.begin_ hs ∧
      (Rising m s → it'.id m = .ok x)) (it.advance m x) := by
  obtain ⟨it', e, h1, h2⟩ := h.advance hr hg x
  obtain ⟨q, q1, q2, q3, q4⟩ := hh
  have hle := advanceHit hr hg q2 q3 _ it it' h.toItOf q1 e
  have hlt : it'.begin_ < s.chunks := by omega
  refine ⟨it', e, h1, hlt, q4.mono hle, fun hm => ?_⟩
  obtain ⟨i, ei, -⟩ := runId hr h1.toItOf
  obtain ⟨-, -, -, hp⟩ := It.advance_loop_post _ _ _ _ _ e
  have hx : x < 65536 := rd16_lt q3
  have hge := hp (by omega) i ei
  have hn : it'.has_next = true := by rw [has_next_iff, h1.fin]; exact hlt
  have ei' := ei
  unfold It.id at ei'
  rw [if_pos hn, h1.hdr] at ei'
  have := hm _ _ _ _ hle q2 ei' q3
  rw [ei, show i = x by omega]

theorem safeIntersectRest (hg : 65536 ≤ g) (hr : ∀ s ∈ ss, Room m s g) {x : Nat} {hs : List Nat} :
    ∀ (n i : Nat) (its : List It) (tmp bitmap : List Nat) (c : Nat), Its m ss g its →
    i + n ≤ its.length →
    (∀ (k : Nat) (it : It) (s : SSeq), its[k]? = some it → ss[k]? = some s → Hits m s it.begin_ hs) →
    (∀ (k : Nat) (it : It) (s : SSeq), i ≤ k → its[k]? = some it → ss[k]? = some s →
      Hits m s it.begin_ (x :: hs)) →
    1024 ≤ tmp.length → 1024 ≤ bitmap.length → Low 1024 bitmap →
    Safe (Fine m dbg ss) dbg (fun q => Its m ss g q.2.1 ∧ q.2.1.length = its.length ∧
      (∀ (k : Nat) (it : It) (s : SSeq), q.2.1[k]? = some it → ss[k]? = some s → Hits m s it.begin_ hs) ∧
      q.2.2.1.length = tmp.length ∧ q.2.2.2.length = bitmap.length ∧ Low 1024 q.2.2.2)
      (intersect_rest dbg m x n i its tmp bitmap c)
  | 0, _, _, _, _, _, h, _, h1, _, _, _, hl => Runs.safe (Runs.ok ⟨h, rfl, h1, rfl, rfl, hl⟩)
  | n + 1, i, its, tmp, bitmap, c, h, hn, h1, h2, ht, hb, hl => by
    unfold intersect_rest
    obtain ⟨it, s, e1, e2, e3, hm⟩ := h.get (show i < its.length by omega)
    rw [rdIt_of e1, ok_bind]
    refine (hm.advanceTo (hr s e3) hg (h2 i it s (Nat.le_refl _) e1 e2)).bindS ?_
    rintro it' ⟨a1, a2, a3, a4⟩
    obtain ⟨id, ei, -⟩ := runId (hr s e3) a1.toItOf
    simp only
    rw [ei, ok_bind]
    have hset : Its m ss g (its.set i it') := h.set (fun s' hs' => by
      rw [e2] at hs'
      cases hs'
      exact a1)
    have hall : ∀ (k : Nat) (a : It) (s : SSeq), (its.set i it')[k]? = some a → ss[k]? = some s →
        Hits m s a.begin_ hs := by
      intro k a s' ha hs'
      rcases set_get ha with ⟨rfl, rfl⟩ | ⟨-, ha⟩
      · rw [e2] at hs'
        cases hs'
        exact a3
      · exact h1 k a s' ha hs'
    refine (safeCassert (fun hl => ?_)).bind (fun _ _ => ?_)
    · rcases hl.1 with h | h
      · exact Or.inl h
      · right
        rw [a4 (h s e3)] at ei
        cases ei
        exact beq_self_eq_true x
    · refine ((safeAnd (hr s e3) a1.toItOf a2 ht hb hl).weaken (fun hl => hl.2 s e3)).bind ?_
      rintro ⟨c', tmp', bitmap'⟩ ⟨b1, b2, b3⟩
      simp only at b1 b2 b3 ⊢
      split
      · exact Runs.safe (Runs.pure ⟨hset, List.length_set, hall, b1, b2, b3⟩)
      · refine (safeIntersectRest hg hr n (i + 1) (its.set i it') tmp' bitmap' _ hset
          (by rw [List.length_set]; omega) hall ?_ (by omega) (by omega) b3).mono ?_
        · intro k a s' hk ha hs'
          rcases set_get ha with ⟨rfl, rfl⟩ | ⟨-, ha⟩
          · omega
          · exact h2 k a s' (by omega) ha hs'
        · rintro ⟨z, its', t', b'⟩ ⟨z1, z2, z3, z4, z5, z6⟩
          simp only at z1 z2 z3 z4 z5 z6 ⊢
          exact ⟨z1, by rw [z2, List.length_set], z3, by omega, by omega, z6⟩

/-- the scratch objects keep their sizes -/
def ISame (s t : IScratch) : Prop :=
  t.headers.length = s.headers.length ∧ t.bitmap.length = s.bitmap.length ∧ t.tmp.length = s.tmp.length

theorem safeIntersectHeaders (hg : 65536 ≤ g) (hr : ∀ s ∈ ss, Room m s g) (hne : ss ≠ []) :
    ∀ (hs : List Nat) (i : Nat) (its : List It) (s : IScratch) (buf : List Nat) (out : Nat),
    Its m ss g its → (∀ j, j < hs.length → s.headers[i + j]? = hs[j]?) →
    (∀ (k : Nat) (it : It) (s : SSeq), its[k]? = some it → ss[k]? = some s → Hits m s it.begin_ hs) →
    1024 ≤ s.tmp.length → 1024 ≤ s.bitmap.length → out + 65536 * hs.length ≤ buf.length →
    Safe (Fine m dbg ss) dbg (fun q => out ≤ q.1 ∧ q.1 ≤ out + 65536 * hs.length ∧ ISame s q.2.1 ∧
      q.2.2.length = buf.length) (intersect_headers dbg m hs.length i its s buf out)
  | [], _, _, _, _, _, _, _, _, _, _, _ =>
    Runs.safe (Runs.ok ⟨Nat.le_refl _, Nat.le_add_right _ _, ⟨rfl, rfl, rfl⟩, rfl⟩)
  | x :: hs, i, its, s, buf, out, h, hh, h1, ht, hb, hc => by
    rw [List.length_cons] at hc ⊢
    unfold intersect_headers
    have hx : s.headers[i]? = some x := hh 0 (by rw [List.length_cons]; omega)
    have hlen : 0 < its.length := by
      rw [h.len]
      exact List.length_pos_iff.mpr hne
    obtain ⟨it, s0, e1, e2, e3, hm⟩ := h.get hlen
    rw [rdv_of hx, ok_bind]
    simp only
    rw [rdIt_of e1, ok_bind]
    refine (hm.advanceTo (hr s0 e3) hg (h1 0 it s0 e1 e2)).bindS ?_
    rintro it' ⟨a1, a2, a3, a4⟩
    obtain ⟨id, ei, -⟩ := runId (hr s0 e3) a1.toItOf
    rw [ei, ok_bind]
    refine (safeCassert (fun hl => ?_)).bind (fun _ _ => ?_)
    · rcases hl.1 with h | h
      · exact Or.inl h
      · right
        rw [a4 (h s0 e3)] at ei
        cases ei
        exact beq_self_eq_true x
    · refine ((safeUncompressLow (hr s0 e3) a1.toItOf a2 hb).weaken (fun hl => hl.2 s0 e3)).bind ?_
      rintro ⟨c, bitmap⟩ ⟨b1, b2⟩
      simp only at b1 b2 ⊢
      have hset : Its m ss g (its.set 0 it') := h.set (fun s' hs' => by
        rw [e2] at hs'
        cases hs'
        exact a1)
      refine (safeIntersectRest hg hr (x := x) (hs := hs) ((its.set 0 it').length - 1) 1 (its.set 0 it')
        s.tmp bitmap _ hset (by rw [List.length_set]; omega) ?_ ?_ ht (by rw [b1]; exact hb) b2).bind ?_
      · intro k a s' ha hs'
        rcases set_get ha with ⟨rfl, rfl⟩ | ⟨-, ha⟩
        · rw [e2] at hs'
          cases hs'
          exact a3
        · exact (h1 k a s' ha hs').tail
      · intro k a s' hk ha hs'
        rcases set_get ha with ⟨rfl, rfl⟩ | ⟨-, ha⟩
        · omega
        · exact h1 k a s' ha hs'
      · rintro ⟨skip, its', tmp', bitmap'⟩ ⟨z1, z2, z3, z4, z5, z6⟩
        simp only at z1 z2 z3 z4 z5 z6 ⊢
        have hexp : 65536 * (hs.length + 1) = 65536 * hs.length + 65536 := Nat.mul_succ _ _
        have hone := room_one hc
        have hh' : ∀ j, j < hs.length → s.headers[i + 1 + j]? = hs[j]? := by
          intro j hj
          have := hh (j + 1) (by rw [List.length_cons]; omega)
          rw [show i + 1 + j = i + (j + 1) by omega, this]
          rfl
        rw [hexp] at hc ⊢
        split
        · refine (safeIntersectHeaders hg hr hne hs (i + 1) its'
            { s with tmp := tmp', bitmap := bitmap' } buf out z1 hh' z3 (by rw [z4]; exact ht)
            (by rw [z5, b1]; exact hb) (by omega)).mono ?_
          rintro ⟨q, t, o⟩ ⟨y1, y2, ⟨y3, y4, y5⟩, y6⟩
          simp only at y1 y2 y3 y4 y5 y6 ⊢
          exact ⟨y1, by omega, ⟨y3, by rw [y4, z5, b1], by rw [y5, z4]⟩, y6⟩
        · refine (runDecodeBitmap (n := 1024) (runVec (by rw [z5, b1]; exact hb) z6) hone).bindS ?_
          rintro ⟨k, buf'⟩ ⟨k1, k2⟩
          simp only at k1 k2 ⊢
          refine (safeIntersectHeaders hg hr hne hs (i + 1) its'
            { s with tmp := tmp', bitmap := bitmap' } buf' (out + k) z1 hh' z3 (by rw [z4]; exact ht)
            (by rw [z5, b1]; exact hb) (by rw [k2]; omega)).mono ?_
          rintro ⟨q, t, o⟩ ⟨y1, y2, ⟨y3, y4, y5⟩, y6⟩
          simp only at y1 y2 y3 y4 y5 y6 ⊢
          exact ⟨by omega, by omega, ⟨y3, by rw [y4, z5, b1], by rw [y5, z4]⟩, by rw [y6, k2]⟩

theorem safeIntersectionSorted (hg : 134217728 ≤ g) (hr : ∀ s ∈ ss, Room m s g) {s0 : SSeq}
    (h0 : ss[0]? = some s0) {s : IScratch} {buf : List Nat} {out : Nat}
    (hh : s0.chunks ≤ s.headers.length) (ht : 1024 ≤ s.tmp.length) (hb : 1024 ≤ s.bitmap.length)
    (hc : out + 65536 * s0.chunks ≤ buf.length) :
    Safe (Fine m dbg ss) dbg (fun q => q.1 ≤ 65536 * s0.chunks ∧ ISame s q.2.1 ∧
      q.2.2.length = buf.length) (intersection_sorted dbg m ss s buf out) := by
  have he := intersection_sorted_ends dbg m ss s buf out
  have hne : ss ≠ [] := by rintro rfl; cases h0
  have hits : Its m ss g (ss.map SSeq.begin) := by
    refine ⟨List.length_map _, fun k it q h1 h2 => ?_⟩
    rw [List.getElem?_map, h2] at h1
    cases h1
    exact Moving.start q g
  have hm0 : s0 ∈ ss := List.mem_of_getElem? h0
  have e0 : (ss.map SSeq.begin)[0]? = some s0.begin := by rw [List.getElem?_map, h0]; rfl
  unfold intersection_sorted at he ⊢
  simp only at he ⊢
  rw [rdIt_of e0, ok_bind] at he ⊢
  obtain ⟨c, ec, -⟩ := runId (hr s0 hm0) (ItOf.start s0 g)
  rw [ec, ok_bind] at he ⊢
  have hlen : 0 < (ss.map SSeq.begin).length := (List.getElem?_eq_some_iff.mp e0).1
  rcases runCandidateWhile hg hr h0 ((s0.begin.end_ + 1) * 65537) (ss.map SSeq.begin) c 1 s.headers 0 hits
    hlen (by
      intro k it hk hit
      obtain rfl : k = 0 := by omega
      rw [e0] at hit
      cases hit
      exact ec) (by
      intro it hit
      rw [e0] at hit
      cases hit
      show 0 + (s0.chunks - 0) ≤ _
      omega) with hd | ⟨⟨n, hdr⟩, eq, hs, hq⟩
  · rw [hd] at he
    exact absurd rfl he.ne
  · rw [eq, ok_bind]
    simp only [e0] at hq ⊢
    have hroom : hs.length ≤ s0.chunks := hq.room
    have hn : n = hs.length := by have := hq.cnt; simp only at this; omega
    subst hn
    have hmul : 65536 * hs.length ≤ 65536 * s0.chunks := Nat.mul_le_mul_left _ hroom
    refine (safeIntersectHeaders (by omega) hr hne hs 0 (ss.map SSeq.begin)
      { s with headers := hdr } buf out hits (fun j hj => hq.new j hj) hq.hit ht hb
      (by omega)).bind ?_
    rintro ⟨q, t, o⟩ ⟨y1, y2, ⟨y3, y4, y5⟩, y6⟩
    simp only at y1 y2 y3 y4 y5 y6 ⊢
    exact Runs.safe (Runs.pure ⟨by simp only; omega, ⟨by rw [y3]; exact hq.len, y4, y5⟩, y6⟩)

theorem runMapCard : ∀ (qs : List SSeq), (∀ s ∈ qs, Room m s g) →
    Runs (fun _ => True) (qs.mapM (fun q => do let c ← q.cardinality m; return (q, c)))
  | [], _ => Runs.pure trivial
  | q :: qs, h => by
    rw [List.mapM_cons]
    refine Runs.bind (P := fun _ => True) ((runCardinality (h q (by simp))).bind
      (fun c _ => Runs.pure trivial)) (fun x _ => ?_)
    exact (runMapCard qs (fun s hs => h s (by simp [hs]))).bind (fun _ _ => Runs.pure trivial)

theorem safeIntersectionMany (hg : 134217728 ≤ g) (hne : ss ≠ []) (hr : ∀ s ∈ ss, Room m s g)
    {sort : (SSeq → Nat) → List SSeq → List SSeq} (hp : ∀ key, (sort key ss).Perm ss)
    {s : IScratch} {buf : List Nat} {out : Nat} (hh : 65536 ≤ s.headers.length)
    (ht : 1024 ≤ s.tmp.length) (hb : 1024 ≤ s.bitmap.length)
    (hc : ∀ q ∈ ss, out + 65536 * q.chunks ≤ buf.length) :
    Safe (Fine m dbg ss) dbg (fun q => (∃ t ∈ ss, q.1 ≤ 65536 * t.chunks) ∧ q.2.1.Perm ss ∧
      ISame s q.2.2.1 ∧ q.2.2.2.length = buf.length) (intersection dbg sort m ss s buf out) := by
  unfold intersection
  refine (runMapCard ss hr).bindS (fun keys _ => ?_)
  simp only
  generalize (fun q => ((keys.find? (fun p => p.1 = q)).map Prod.snd).getD 0) = key
  have hperm := hp key
  have hne' : sort key ss ≠ [] := by
    intro e
    rw [e] at hperm
    exact hne hperm.nil_eq.symm
  obtain ⟨s0, t, e⟩ : ∃ s0 t, sort key ss = s0 :: t := by
    cases hs : sort key ss with
    | nil => exact absurd hs hne'
    | cons a b => exact ⟨a, b, rfl⟩
  have hmem : ∀ x, x ∈ sort key ss ↔ x ∈ ss := fun x => hperm.mem_iff
  have hm0 : s0 ∈ ss := (hmem s0).mp (by rw [e]; exact List.mem_cons_self ..)
  have h0 : (sort key ss)[0]? = some s0 := by rw [e]; rfl
  have hmax := (hr s0 hm0).max
  refine ((safeIntersectionSorted hg (fun q hq => hr q ((hmem q).mp hq)) h0 (by omega) ht hb
    (hc s0 hm0)).weaken (fun hf => ⟨?_, fun q hq => hf.2 q ((hmem q).mp hq)⟩)).bind ?_
  · rcases hf.1 with h | h
    · exact Or.inl h
    · exact Or.inr (fun q hq => h q ((hmem q).mp hq))
  · rintro ⟨q, t', o⟩ ⟨y1, y2, y3⟩
    exact Runs.safe (Runs.pure ⟨⟨s0, hm0, y1⟩, hperm, y2, y3⟩)

end Sliced
