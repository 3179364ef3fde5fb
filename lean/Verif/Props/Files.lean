import Verif.Props.Termination
import Verif.Props.Index
/-!
# Which collection files the index builder accepts (C61)

A file is a list of 32-bit words.  Everything after the first two words is read as lists, each
preceded by its length; the last one may be cut off.
-/
namespace Sliced

/-- the lists of a file, each preceded by its length -/
def flatLists (lists : List (List Nat)) : List Nat := lists.flatMap (fun xs => xs.length :: xs)

/-- a list that has been cut off: fewer words follow than its length says -/
def CutOff (w : List Nat) : Prop := ∃ n short, w = n :: short ∧ short.length < n

theorem flatLists_cons (xs : List Nat) (lists : List (List Nat)) :
    flatLists (xs :: lists) = xs.length :: xs ++ flatLists lists := by
  unfold flatLists; rw [List.flatMap_cons]

variable {dbg : Bool} {params : Params} {univ d0 : Nat} {lists : List (List Nat)} {data w : List Nat}

/-- C61: every file can be read in exactly one way: as complete lists, and possibly one more list
that is cut off. -/
theorem C61_parse (w : List Nat) :
    ∃ lists rest, w = flatLists lists ++ rest ∧ (rest = [] ∨ CutOff rest) := by
  suffices h : ∀ n (w : List Nat), w.length ≤ n →
      ∃ lists rest, w = flatLists lists ++ rest ∧ (rest = [] ∨ CutOff rest) from h _ w (Nat.le_refl _)
  intro n
  induction n with
  | zero =>
    intro w hw
    refine ⟨[], [], ?_, Or.inl rfl⟩
    have : w = [] := List.eq_nil_of_length_eq_zero (by omega)
    rw [this]; rfl
  | succ n ih =>
    intro w hw
    cases w with
    | nil => exact ⟨[], [], rfl, Or.inl rfl⟩
    | cons k t =>
      by_cases h : t.length < k
      · exact ⟨[], k :: t, rfl, Or.inr ⟨k, t, rfl, h⟩⟩
      · obtain ⟨lists, rest, e, hr⟩ := ih (t.drop k) (by
          rw [List.length_drop]; rw [List.length_cons] at hw; omega)
        refine ⟨t.take k :: lists, rest, ?_, hr⟩
        rw [flatLists_cons, List.append_assoc, ← e, List.length_take, Nat.min_eq_left (by omega),
          List.cons_append, List.take_append_drop]

/-- C61: … exactly one. -/
theorem C61_parse_unique {l1 l2 : List (List Nat)} {r1 r2 : List Nat}
    (h : flatLists l1 ++ r1 = flatLists l2 ++ r2) (h1 : r1 = [] ∨ CutOff r1)
    (h2 : r2 = [] ∨ CutOff r2) : l1 = l2 ∧ r1 = r2 := by
  have stop : ∀ {r : List Nat} {x : List Nat} {t : List Nat}, (r = [] ∨ CutOff r) →
      r ≠ x.length :: x ++ t := by
    rintro r x t (rfl | ⟨n, s, rfl, hs⟩) e
    · cases e
    · simp only [List.cons_append, List.cons.injEq] at e
      have := congrArg List.length e.2
      rw [List.length_append] at this
      omega
  induction l1 generalizing l2 with
  | nil =>
    cases l2 with
    | nil => exact ⟨rfl, h⟩
    | cons y l2 =>
      exfalso
      rw [flatLists_cons, List.append_assoc] at h
      exact stop h1 h
  | cons x l1 ih =>
    cases l2 with
    | nil =>
      exfalso
      rw [flatLists_cons, List.append_assoc] at h
      exact stop h2 h.symm
    | cons y l2 =>
      rw [flatLists_cons, flatLists_cons, List.append_assoc, List.append_assoc] at h
      simp only [List.cons_append, List.cons.injEq] at h
      obtain ⟨e1, e2⟩ := List.append_inj h.2 h.1
      obtain ⟨e3, e4⟩ := ih e2
      exact ⟨by rw [e1, e3], e4⟩

/-- the builder has read the complete lists and goes on with what follows -/
theorem build_loop_through {pre tl : List Nat}
    (hlen : ∀ xs ∈ lists, xs.length < 4294967295)
    (hval : ∀ xs ∈ lists, Kept params xs → Valid xs) {fuel : Nat}
    {st : IdxState} (hb : st.block = []) (ha : st.stats.ArraysOk) :
    ∃ st', st'.block = [] ∧ st'.stats.ArraysOk ∧
      build_loop dbg params (pre ++ (flatLists lists ++ tl)) (lists.length + fuel) pre.length st
        = build_loop dbg params (pre ++ (flatLists lists ++ tl)) fuel
          (pre ++ flatLists lists).length st' := by
  induction lists generalizing pre st with
  | nil => exact ⟨st, hb, ha, by simp [flatLists]⟩
  | cons xs lists ih =>
    have hl := hlen xs (List.mem_cons_self ..)
    have e1 : pre ++ (flatLists (xs :: lists) ++ tl)
        = (pre ++ (xs.length :: xs)) ++ (flatLists lists ++ tl) := by
      rw [flatLists_cons, List.append_assoc, List.append_assoc]
    have e3 : pre ++ flatLists (xs :: lists) = (pre ++ (xs.length :: xs)) ++ flatLists lists := by
      rw [flatLists_cons, List.append_assoc]
    have e2 : pre.length + u32 (xs.length + 1) = (pre ++ (xs.length :: xs)).length := by
      unfold u32
      rw [Nat.mod_eq_of_lt (by omega), List.length_append, List.length_cons]
    have ih' := fun (st : IdxState) => ih (pre := pre ++ (xs.length :: xs))
      (fun y hy => hlen y (List.mem_cons_of_mem _ hy)) (fun y hy => hval y (List.mem_cons_of_mem _ hy))
      (st := st)
    rw [e1, e3, List.length_cons, show lists.length + 1 + fuel = (lists.length + fuel) + 1 by omega]
    generalize hd : flatLists lists ++ tl = tl' at *
    have hn : rdv ((pre ++ (xs.length :: xs)) ++ tl') pre.length = .ok xs.length := by
      apply rdv_of
      simp
    obtain ⟨v, hu, hv1, hv2⟩ : ∃ v, rdv ((pre ++ (xs.length :: xs)) ++ tl') (pre.length + xs.length) = .ok v
        ∧ (xs ≠ [] → xs.getLast? = some v) ∧ (xs = [] → v = 0) := by
      rcases xs with _ | ⟨x, t⟩
      · refine ⟨0, ?_, by simp, fun _ => rfl⟩
        apply rdv_of
        simp
      · refine ⟨(x :: t).getLast (by simp), ?_, fun _ => List.getLast?_eq_some_getLast _, by simp⟩
        apply rdv_of
        rw [List.append_assoc, List.getElem?_append_right (by omega), Nat.add_sub_cancel_left,
          List.getElem?_append_left (by simp), List.length_cons, List.getElem?_cons_succ,
          List.getLast_eq_getElem]
        simp
    have hp := pass_iff (params := params) hv1 hv2
    have hsl : ((pre ++ (xs.length :: xs) ++ tl').drop (pre.length + 1)).take xs.length = xs := by
      rw [List.append_assoc, List.drop_append, List.drop_eq_nil_of_le (by omega)]
      simp
    conv => enter [1, st', 2, 2, 1]; unfold build_loop
    rw [if_pos (by simp only [List.length_append, List.length_cons]; omega), hn]
    simp only [ok_bind]
    rw [hu]
    simp only [ok_bind]
    by_cases hk : Kept params xs
    · have hvx := hval xs (List.mem_cons_self ..) hk
      rw [if_pos (hp.mpr hk), hsl, hb]
      obtain ⟨s1, k, es, hss, hkk⟩ := encode_sequence_spec (dbg := dbg) hvx ha (out := st.sequences)
      rw [es]
      simp only [ok_bind]
      rw [e2]
      exact ih' (IdxState.mk (st.offsets ++ [(st.sequences ++ seqBytes (chunksOf xs)).length])
          (st.sequences ++ seqBytes (chunksOf xs)) [] s1) rfl
        (hss.delta (by rw [← seqElems_length, seqElems_chunksOf hvx])).2.2.2.2.2
    · rw [if_neg (fun h => hk (hp.mp h)), e2]
      exact ih' st hb ha

theorem flatLists_length (lists : List (List Nat)) : lists.length ≤ (flatLists lists).length := by
  induction lists with
  | nil => simp
  | cons a l ih => rw [flatLists_cons]; simp only [List.length_append, List.length_cons]; omega

/-- C61: a file whose last list is cut off makes the builder read past the end of the file, whatever
the parameters, and also in a release build; the complete lists before it do not matter as long as
the ones that are kept are valid. -/
theorem C61_cut_off (hlen : ∀ xs ∈ lists, xs.length < 4294967295)
    (hval : ∀ xs ∈ lists, Kept params xs → Valid xs) (hw : CutOff w) (hd : dbg = true → d0 = 1) :
    build_index dbg params (d0 :: univ :: (flatLists lists ++ w)) = .error .ub := by
  obtain ⟨n, short, rfl, hs⟩ := hw
  unfold build_index
  rw [show rdv (d0 :: univ :: (flatLists lists ++ n :: short)) 0 = .ok d0 from rfl]
  simp only [ok_bind]
  rw [show cassert dbg (d0 == 1) = .ok () by cases dbg <;> simp_all [cassert],
    show rdv (d0 :: univ :: (flatLists lists ++ n :: short)) 1 = .ok univ from rfl]
  simp only [ok_bind]
  obtain ⟨k, hk⟩ : ∃ k, (d0 :: univ :: (flatLists lists ++ n :: short)).length + 1
      = lists.length + (k + 1) := by
    have := flatLists_length lists
    exact ⟨(d0 :: univ :: (flatLists lists ++ n :: short)).length - lists.length, by
      simp only [List.length_cons, List.length_append]; omega⟩
  obtain ⟨st', -, -, e⟩ := build_loop_through (dbg := dbg) (params := params) (pre := [d0, univ])
    (tl := n :: short) hlen hval (fuel := k + 1)
    (st := { offsets := [univ, 0], sequences := [], block := [], stats := {} }) rfl arraysOk_default
  rw [hk]
  have e' : build_loop dbg params (d0 :: univ :: (flatLists lists ++ n :: short)) (lists.length + (k + 1)) 2
    { offsets := [univ, 0], sequences := [], block := [], stats := {} } = _ := e
  rw [e']
  have hpos : ([d0, univ] ++ flatLists lists).length = 2 + (flatLists lists).length := by
    rw [List.length_append]; rfl
  unfold build_loop
  rw [hpos, if_pos (by simp only [List.length_append, List.length_cons]; omega)]
  have h1 : rdv ([d0, univ] ++ (flatLists lists ++ n :: short)) (2 + (flatLists lists).length) = .ok n := by
    apply rdv_of
    rw [← List.append_assoc, List.getElem?_append_right (by rw [hpos]; omega), hpos, Nat.sub_self]
    rfl
  have h2 : rdv ([d0, univ] ++ (flatLists lists ++ n :: short)) (2 + (flatLists lists).length + n)
      = .error .ub := by
    unfold rdv
    rw [List.getElem?_eq_none (by simp only [List.length_append, List.length_cons, List.length_nil]; omega)]
  rw [h1]
  simp only [ok_bind]
  rw [h2]
  rfl

theorem build_loop_tail_eq (d d' : Nat) (t : List Nat) (fuel i : Nat) (st : IdxState) :
    build_loop dbg params (d :: t) fuel (i + 1) st = build_loop dbg params (d' :: t) fuel (i + 1) st := by
  induction fuel generalizing i st with
  | zero => rfl
  | succ f ih =>
    unfold build_loop
    have hr : ∀ j, rdv (d :: t) (j + 1) = rdv (d' :: t) (j + 1) := fun j => by
      unfold rdv; rw [List.getElem?_cons_succ, List.getElem?_cons_succ]
    simp only [hr, List.length_cons, List.drop_succ_cons]
    have hr' : ∀ n, rdv (d :: t) (i + 1 + n) = rdv (d' :: t) (i + 1 + n) := fun n => by
      rw [show i + 1 + n = (i + n) + 1 by omega]; exact hr _
    simp only [hr']
    have ih' : ∀ n st, build_loop dbg params (d :: t) f (i + 1 + n) st
        = build_loop dbg params (d' :: t) f (i + 1 + n) st := fun n st => by
      rw [show i + 1 + n = (i + n) + 1 by omega]; exact ih _ _
    simp only [ih']

/-- C61: a release build does not look at the first word of the file. -/
theorem C61_first_word_ignored (d d' : Nat) (t : List Nat) :
    build_index false params (d :: t) = build_index false params (d' :: t) := by
  unfold build_index
  rw [show rdv (d :: t) 0 = .ok d from rfl, show rdv (d' :: t) 0 = .ok d' from rfl,
    show rdv (d :: t) 1 = rdv (d' :: t) 1 from rfl]
  simp only [ok_bind, List.length_cons, build_loop_tail_eq d d' t]
  rfl

/-- a run of the loop that ends has seen complete lists only -/
theorem build_loop_wellformed {fuel i : Nat} {st st' : IdxState} (hw : ∀ x ∈ data, x < 4294967296)
    (hi : i ≤ data.length) (h : build_loop dbg params data fuel i st = .ok st') :
    ∃ lists, data.drop i = flatLists lists ∧ ∀ xs ∈ lists, xs.length < 4294967295 := by
  induction fuel generalizing i st with
  | zero => cases h
  | succ f ih =>
    by_cases hl : i < data.length
    · have hstuck := C37_stuck (dbg := dbg) params data i
      have h0 := h
      unfold build_loop at h
      rw [if_pos hl] at h
      obtain ⟨n, hn, h⟩ := bind_ok h
      obtain ⟨u, hu, h⟩ := bind_ok h
      have hn' := rdv_eq hn
      have hlt := rdv_lt hu
      have hn32 : n < 4294967296 := hw n (List.mem_of_getElem? hn')
      have hne : n ≠ 4294967295 := by
        rintro rfl
        exact hstuck hn' _ _ _ h0
      have hu32 : u32 (n + 1) = n + 1 := u32_lt (by omega)
      rw [hu32] at h
      have rest : ∀ st, build_loop dbg params data f (i + (n + 1)) st = .ok st' →
          ∃ lists, data.drop i = flatLists lists ∧ ∀ xs ∈ lists, xs.length < 4294967295 := by
        intro st h
        obtain ⟨lists, e, hlen⟩ := ih (by omega) h
        have htl : ((data.drop (i + 1)).take n).length = n := by
          rw [List.length_take, List.length_drop]; omega
        refine ⟨(data.drop (i + 1)).take n :: lists, ?_, ?_⟩
        · rw [flatLists_cons, ← e, htl, List.cons_append,
            show data.drop (i + (n + 1)) = (data.drop (i + 1)).drop n by
              rw [List.drop_drop]; congr 1; omega,
            List.take_append_drop, List.drop_eq_getElem_cons hl]
          congr 1
          rw [List.getElem?_eq_getElem hl] at hn'
          exact Option.some.inj hn'
        · intro xs hx
          rcases List.mem_cons.mp hx with rfl | hx
          · omega
          · exact hlen xs hx
      split at h
      · obtain ⟨r, -, h⟩ := bind_ok h
        exact rest _ h
      · exact rest _ h
    · exact ⟨[], by rw [List.drop_eq_nil_of_le (by omega)]; rfl, by simp⟩

/-- C61: a file from which an index has been built, whatever else is in it, consists of two words and
complete lists of fewer than `2^32 - 1` integers; in a debug build the first word is 1. -/
theorem C61_accepted {r : List Nat × List UInt8 × Stats} (hw : ∀ x ∈ data, x < 4294967296)
    (h : build_index dbg params data = .ok r) :
    ∃ d0 univ lists, data = d0 :: univ :: flatLists lists ∧
      (∀ xs ∈ lists, xs.length < 4294967295) ∧ (dbg = true → d0 = 1) := by
  unfold build_index at h
  obtain ⟨d0, h0, h⟩ := bind_ok h
  obtain ⟨_, hc, h⟩ := bind_ok h
  obtain ⟨d1, h1, h⟩ := bind_ok h
  obtain ⟨st, hl, -⟩ := bind_ok h
  have hlen := rdv_lt h1
  match data, h0, h1, hlen with
  | a :: b :: t, h0, h1, _ =>
    have e0 := rdv_eq h0
    simp only [List.getElem?_cons_zero, Option.some.injEq] at e0
    subst e0
    obtain ⟨lists, e, hle⟩ := build_loop_wellformed hw (by simp) hl
    refine ⟨a, b, lists, by rw [← e]; rfl, hle, ?_⟩
    rintro rfl
    unfold cassert at hc
    by_cases ha : a = 1
    · exact ha
    · simp [ha] at hc

/-- C61: exactly which files are accepted: if the complete lists of the file that pass the filter are
valid, then the builder succeeds if no list is cut off (and, in a debug build, the first word is 1). -/
theorem C61_exact {rest : List Nat} (hw : ∀ x ∈ d0 :: univ :: (flatLists lists ++ rest), x < 4294967296)
    (hr : rest = [] ∨ CutOff rest) (hlen : ∀ xs ∈ lists, xs.length < 4294967295)
    (hval : ∀ xs ∈ lists, Kept params xs → Valid xs) :
    (∃ r, build_index dbg params (d0 :: univ :: (flatLists lists ++ rest)) = .ok r)
      ↔ rest = [] ∧ (dbg = true → d0 = 1) := by
  constructor
  · rintro ⟨r, h⟩
    obtain ⟨d', u', l', e, -, hd⟩ := C61_accepted hw h
    simp only [List.cons.injEq] at e
    obtain ⟨rfl, rfl, e⟩ := e
    refine ⟨?_, hd⟩
    rw [← List.append_nil (flatLists l')] at e
    exact (C61_parse_unique e hr (Or.inl rfl)).2
  · rintro ⟨rfl, hd⟩
    rw [List.append_nil]
    have hg : GoodCollection params univ lists := ⟨hw univ (by simp), hlen, hval⟩
    have ok : ∃ r, build_index dbg params (1 :: univ :: flatLists lists) = .ok r := by
      obtain ⟨st, e, -⟩ := build_index_spec (dbg := dbg) hg
      exact ⟨_, e⟩
    cases dbg with
    | true => rw [hd rfl]; exact ok
    | false => rw [C61_first_word_ignored d0 1]; exact ok

/-- C61: and the outcome otherwise: reading past the end, unless a debug build has stopped at the
first word. -/
theorem C61_otherwise {rest : List Nat} (hr : rest = [] ∨ CutOff rest)
    (hlen : ∀ xs ∈ lists, xs.length < 4294967295)
    (hval : ∀ xs ∈ lists, Kept params xs → Valid xs)
    (h : ∀ r, build_index dbg params (d0 :: univ :: (flatLists lists ++ rest)) ≠ .ok r)
    (hu : univ < 4294967296) :
    build_index dbg params (d0 :: univ :: (flatLists lists ++ rest))
      = .error (if dbg = true ∧ d0 ≠ 1 then .abort else .ub) := by
  by_cases hd : dbg = true ∧ d0 ≠ 1
  · rw [if_pos hd]
    unfold build_index
    rw [show rdv (d0 :: univ :: (flatLists lists ++ rest)) 0 = .ok d0 from rfl]
    simp only [ok_bind]
    rw [show cassert dbg (d0 == 1) = .error .abort by simp [cassert, hd.1, hd.2]]
    rfl
  · rw [if_neg hd]
    have hd' : dbg = true → d0 = 1 := fun h1 => Classical.byContradiction (fun h2 => hd ⟨h1, h2⟩)
    rcases hr with rfl | hr
    · exfalso
      rw [List.append_nil] at h
      have hg : GoodCollection params univ lists := ⟨hu, hlen, hval⟩
      obtain ⟨st, e, -⟩ := build_index_spec (dbg := dbg) hg
      have e' : build_index dbg params (1 :: univ :: flatLists lists) = _ := e
      cases dbg with
      | true => rw [hd' rfl] at h; exact h _ e'
      | false => rw [C61_first_word_ignored d0 1] at h; exact h _ e'
    · exact C61_cut_off hlen hval hr hd'

/-- C61: a file of fewer than two words is not accepted. -/
theorem C61_short (h : data.length < 2) (r : List Nat × List UInt8 × Stats) :
    build_index dbg params data ≠ .ok r := by
  intro hb
  unfold build_index at hb
  obtain ⟨d0, -, hb⟩ := bind_ok hb
  obtain ⟨-, -, hb⟩ := bind_ok hb
  obtain ⟨d1, h1, -⟩ := bind_ok hb
  have := rdv_lt h1
  omega

/-- a file with a list of one, a list of two, and a list of three of which only two are there -/
example : build_index true { size := 0 } [1, 100, 1, 7, 2, 3, 9, 3, 4, 5] = .error .ub :=
  C61_cut_off (lists := [[7], [3, 9]]) (w := [3, 4, 5]) (by decide)
    (by
      intro xs hx _
      simp only [List.mem_cons, List.not_mem_nil, or_false] at hx
      rcases hx with rfl | rfl
      · exact ⟨by decide, by decide, by decide⟩
      · exact ⟨by decide, by decide, by decide⟩)
    ⟨3, [4, 5], rfl, by decide⟩ (fun _ => rfl)

/-- the same file without the last list -/
example : ∃ r, build_index false { size := 0 } [17, 100, 1, 7, 2, 3, 9] = .ok r :=
  (C61_exact (d0 := 17) (univ := 100) (lists := [[7], [3, 9]]) (rest := []) (by decide) (Or.inl rfl)
    (by decide) (by
      intro xs hx _
      simp only [List.mem_cons, List.not_mem_nil, or_false] at hx
      rcases hx with rfl | rfl
      · exact ⟨by decide, by decide, by decide⟩
      · exact ⟨by decide, by decide, by decide⟩)).mpr ⟨rfl, by decide⟩

example : ∃ lists rest, [1, 7, 2, 3, 9, 3, 4, 5] = flatLists lists ++ rest ∧ lists = [[7], [3, 9]] ∧
    rest = [3, 4, 5] := by
  obtain ⟨lists, rest, h, hr⟩ := C61_parse [1, 7, 2, 3, 9, 3, 4, 5]
  obtain ⟨h1, h2⟩ := C61_parse_unique (l1 := lists) (l2 := [[7], [3, 9]]) (r1 := rest) (r2 := [3, 4, 5])
    h.symm hr (.inr ⟨3, [4, 5], rfl, by decide⟩)
  exact ⟨lists, rest, h, h1, h2⟩

/-- a file with one word only -/
example (r : List Nat × List UInt8 × Stats) : build_index false {} [1] ≠ .ok r := C61_short (by decide) r

end Sliced
