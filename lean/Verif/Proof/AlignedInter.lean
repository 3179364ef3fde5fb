import Verif.Model.AlignedInter
import Verif.Proof.AlignedMany
import Verif.Proof.IntersectionMany
/-! # The many-way intersection with checked alignment: the same result, or undefined -/
namespace Sliced

/-! ## Phase 1: the search

An iterator over at most 32 more slices reads no skip pointer. -/

/-- the 16-bit words of `it` are aligned; so are its skip pointers, unless it reads none -/
def Steady (it : It) : Prop :=
  it.header % 2 = 0 ∧ (it.pointers % 4 = 0 ∨ it.end_ ≤ it.begin_ + 32)

section
variable {m : Mem} {it it' : It} {lb : Nat}

theorem Steady.next (h : Steady it) (e : it.next m = .ok it') : Steady it' := by
  unfold It.next at e
  obtain ⟨o, -, e⟩ := bind_ok e
  cases e
  obtain ⟨h1, h2⟩ := h
  refine ⟨by simp only; omega, ?_⟩
  rcases h2 with h2 | h2
  · exact Or.inl h2
  · exact Or.inr (by simp only; omega)

theorem Steady.jump (h : Steady it) (e : it.jump m = .ok it') : Steady it' := by
  unfold It.jump at e
  obtain ⟨o, -, e⟩ := bind_ok e
  cases e
  obtain ⟨h1, h2⟩ := h
  refine ⟨by simp only [It.skip_header, associativity]; omega, ?_⟩
  rcases h2 with h2 | h2
  · exact Or.inl (by simp only; omega)
  · exact Or.inr (by simp only [It.skip_position, associativity]; omega)

theorem Steady.advance_loop (f : Nat) (h : Steady it) (e : It.advance_loop m lb f it = .ok it') :
    Steady it' := by
  induction f generalizing it with
  | zero => cases e
  | succ f ih =>
    unfold It.advance_loop at e
    obtain ⟨i, -, e⟩ := bind_ok e
    by_cases hc : (decide (i < lb) && it.has_next) = true
    · rw [if_pos hc] at e
      obtain ⟨it1, e1, e⟩ := bind_ok e
      exact ih (h.next e1) e
    · rw [if_neg hc] at e
      cases e
      exact h

theorem Steady.skip_value_loop (f : Nat) (h : Steady it)
    (e : It.skip_value_loop m lb f it = .ok it') : Steady it' := by
  induction f generalizing it with
  | zero => cases e
  | succ f ih =>
    unfold It.skip_value_loop at e
    by_cases hc : it.skip_position < it.end_
    · rw [if_pos hc] at e
      obtain ⟨i, -, e⟩ := bind_ok e
      by_cases hi : i ≤ lb
      · rw [if_pos hi] at e
        obtain ⟨it1, e1, e⟩ := bind_ok e
        exact ih (h.jump e1) e
      · rw [if_neg hi] at e
        cases e
        exact h
    · rw [if_neg hc] at e
      cases e
      exact h

theorem Steady.skip_to_value (h : Steady it) (e : it.skip_to_value m lb = .ok it') : Steady it' := by
  unfold It.skip_to_value at e
  obtain ⟨it1, e1, e⟩ := bind_ok e
  exact (h.skip_value_loop _ e1).advance_loop _ e

theorem Steady.skip_to_valueA_eq (h : Steady it) : it.skip_to_valueA m lb = it.skip_to_value m lb := by
  have e1 : It.skip_value_loopA m lb (it.end_ - it.begin_ + 1) it
      = It.skip_value_loop m lb (it.end_ - it.begin_ + 1) it := by
    rcases h.2 with hp | hp
    · exact It.skip_value_loopA_eq _ h.1 hp
    · have hc : ¬ it.skip_position < it.end_ := by
        simp only [It.skip_position, associativity]; omega
      unfold It.skip_value_loopA It.skip_value_loop
      rw [if_neg hc, if_neg hc]
  unfold It.skip_to_valueA It.skip_to_value
  rw [e1]
  cases e : It.skip_value_loop m lb (it.end_ - it.begin_ + 1) it with
  | error x => rfl
  | ok it1 => exact It.advanceA_eq (h.skip_value_loop _ e).1

theorem rdIt_mem {its : List It} {i : Nat} (e : rdIt its i = .ok it) : it ∈ its := by
  unfold rdIt at e
  cases h : its[i]? with
  | none => rw [h] at e; cases e
  | some x =>
    rw [h] at e
    cases e
    exact List.mem_of_getElem? h

theorem candidate_forA_eq (f : Nat) {its : List It} {candidate i : Nat} (h : ∀ it ∈ its, Steady it) :
    candidate_forA m f its candidate i = candidate_for m f its candidate i := by
  induction f generalizing its i with
  | zero => rfl
  | succ f ih =>
    unfold candidate_forA candidate_for
    by_cases hi : i < its.length
    · rw [if_pos hi, if_pos hi]
      cases e : rdIt its i with
      | error x => rfl
      | ok it =>
        have hs := h it (rdIt_mem e)
        simp only [ok_bind]
        rw [hs.skip_to_valueA_eq]
        cases e1 : it.skip_to_value m candidate with
        | error x => rfl
        | ok it' =>
          have hs' := hs.skip_to_value e1
          simp only [ok_bind]
          rw [It.idA_eq hs'.1]
          cases it'.id m with
          | error x => rfl
          | ok v =>
            simp only [ok_bind]
            by_cases hv : v ≠ candidate
            · rw [if_pos hv, if_pos hv]
            · rw [if_neg hv, if_neg hv]
              refine ih (fun it hit => ?_)
              rcases mem_set_cases hit with rfl | hit
              · exact hs'
              · exact h it hit
    · rw [if_neg hi, if_neg hi]

theorem candidate_for_steady (f : Nat) {its : List It} {candidate i : Nat} {o : List It × Nat × Nat}
    (h : ∀ it ∈ its, Steady it) (e : candidate_for m f its candidate i = .ok o) :
    ∀ it ∈ o.1, Steady it := by
  induction f generalizing its i with
  | zero => cases e
  | succ f ih =>
    unfold candidate_for at e
    by_cases hi : i < its.length
    · rw [if_pos hi] at e
      obtain ⟨it, e1, e⟩ := bind_ok e
      obtain ⟨it', e2, e⟩ := bind_ok e
      have hset : ∀ x ∈ its.set i it', Steady x := by
        intro x hx
        rcases mem_set_cases hx with rfl | hx
        · exact (h it (rdIt_mem e1)).skip_to_value e2
        · exact h x hx
      obtain ⟨v, e3, e⟩ := bind_ok e
      by_cases hv : v ≠ candidate
      · rw [if_pos hv] at e
        cases e
        exact hset
      · rw [if_neg hv] at e
        exact ih hset e
    · rw [if_neg hi] at e
      cases e
      exact h

theorem candidate_whileA_eq (f : Nat) {its : List It} {candidate i n : Nat} {headers : List Nat}
    (h : ∀ it ∈ its, Steady it) :
    candidate_whileA m f its candidate i headers n = candidate_while m f its candidate i headers n := by
  induction f generalizing its candidate i headers n with
  | zero => rfl
  | succ f ih =>
    unfold candidate_whileA candidate_while
    by_cases hc : candidate < 65536
    · rw [if_pos hc, if_pos hc, candidate_forA_eq _ h]
      cases e : candidate_for m (its.length + 1) its candidate i with
      | error x => rfl
      | ok o =>
        obtain ⟨its', c', i'⟩ := o
        have h' := candidate_for_steady _ h e
        simp only [ok_bind]
        by_cases hi : i' = its'.length
        · rw [if_pos hi, if_pos hi]
          cases wr headers n (u16 c') with
          | error x => rfl
          | ok hd =>
            simp only [ok_bind]
            cases e0 : rdIt its' 0 with
            | error x => rfl
            | ok it0 =>
              have hs := h' it0 (rdIt_mem e0)
              simp only [ok_bind]
              rw [It.nextA_eq hs.1]
              cases e1 : it0.next m with
              | error x => rfl
              | ok it1 =>
                have hs1 := hs.next e1
                simp only [ok_bind]
                rw [It.idA_eq hs1.1]
                cases it1.id m with
                | error x => rfl
                | ok v =>
                  refine ih (fun it hit => ?_)
                  rcases mem_set_cases hit with rfl | hit
                  · exact hs1
                  · exact h' it hit
        · rw [if_neg hi, if_neg hi]
          exact ih h'
    · rw [if_neg hc, if_neg hc]

end

/-! ## Phase 2: the common slices -/

theorem and_words_loop_aligned {m : Mem} {p n i c : Nat} {b : List Nat} {o : Nat × List Nat} (hn : 0 < n)
    (h : and_words_loop (memWords m p) n i c b = .ok o) :
    Gated (p % 8 = 0) (and_words_loop (memWordsA m p) n i c b) (.ok o) := by
  constructor
  · intro hp
    rw [memWordsA_aligned hp]; exact h
  · intro hp
    obtain ⟨n, rfl⟩ : ∃ k, n = k + 1 := ⟨n - 1, by omega⟩
    unfold and_words_loop
    rw [memWordsA_misaligned hp]
    rfl

theorem uncompress_chunk_and_intersect_aligned {dbg : Bool} {m : Mem} {it : It} {c : Chk}
    {cs : List Chk} {tmp bitmap : List Nat} {k : Nat} {o : Nat × List Nat × List Nat}
    (hh : it.header % 2 = 0) (hi : ItOn 0 m it (c :: cs))
    (h : uncompress_chunk_and_intersect dbg m it tmp bitmap k = .ok o) :
    Gated (denseAligned it.data c.body) (uncompress_chunk_and_intersectA dbg m it tmp bitmap k)
      (.ok o) := by
  unfold uncompress_chunk_and_intersect at h
  unfold uncompress_chunk_and_intersectA
  rw [It.typeA_eq hh, It.blocksA_eq hh]
  cases eb : c.body with
  | full =>
    rw [hi.type_full eb] at h ⊢
    exact Gated.of_true trivial (by simpa [type_sparse, type_dense, type_full] using h)
  | dense vs =>
    rw [hi.type_dense eb] at h ⊢
    simp only [ok_bind, type_sparse, type_dense] at h ⊢
    rw [if_neg (by decide), if_pos trivial] at h ⊢
    exact (Gated.step (Q := True) h (fun _ e => and_words_loop_aligned (by decide) e)
      (fun _ _ e => Gated.same e)).iff (and_iff_left trivial)
  | sparse bs =>
    rw [hi.type_sparse eb] at h ⊢
    simp only [ok_bind, type_sparse] at h ⊢
    rw [if_pos trivial] at h ⊢
    exact Gated.of_true trivial h

/-- the state of phase 2 with the place of each chunk -/
structure Ph2A where
  st : Ph2
  pos : Nat → Nat

structure Ph2A.Ok (m : Mem) (h : Nat) (q : Ph2A) : Prop where
  even : q.st.it.header % 2 = 0
  on : ItOnP (ChkPut m q.pos) m q.st.it q.st.cs
  wf : ChunksWF q.st.all
  keep : fromId h q.st.cs = fromId h q.st.all

theorem Ph2A.Ok.mono {m : Mem} {h h' : Nat} {q : Ph2A} (hq : q.Ok m h) (hle : h ≤ h') : q.Ok m h' :=
  ⟨hq.even, hq.on, hq.wf, by rw [← fromId_fromId hle q.st.cs, hq.keep, fromId_fromId hle]⟩

theorem Ph2A.Ok.advance {m : Mem} {h : Nat} {q : Ph2A} (hq : q.Ok m h)
    (hm : h ∈ q.st.all.map Chk.id) :
    ∃ it' c t, q.st.it.advance m h = .ok it' ∧ it'.header % 2 = 0 ∧
      ItOnP (ChkPut m q.pos) m it' (c :: t) ∧ c ∈ q.st.all ∧ c.id = h ∧
      valsAt h q.st.all = c.body.vals ∧ Ph2A.Ok m h ⟨⟨it', c :: t, q.st.all⟩, q.pos⟩ := by
  obtain ⟨it', e, hon, -⟩ := It.advance_spec (lb := h) hq.on
  obtain ⟨c, t, e1, e2, e3⟩ := valsAt_of hq.wf hm
  rw [hq.keep, e1] at hon
  have hev := It.advance_loop_even _ hq.even e
  refine ⟨it', c, t, e, hev, hon, ?_, e2, e3, hev, hon, hq.wf, ?_⟩
  · exact (fromId_sublist h q.st.all).sublist.subset (by rw [e1]; exact List.mem_cons_self)
  · show fromId h (c :: t) = fromId h q.st.all
    rw [← e1, fromId_fromId (Nat.le_refl h)]

/-- the place and the chunks of each list -/
def Ph2A.put (q : Ph2A) : (Nat → Nat) × List Chk := (q.pos, q.st.all)

def ph2AIts (st : List Ph2A) : List It := st.map (fun q => q.st.it)

theorem rdIt_ph2A {st : List Ph2A} {i : Nat} (h : i < st.length) :
    rdIt (ph2AIts st) i = .ok st[i].st.it := by
  unfold rdIt ph2AIts
  rw [List.getElem?_map, List.getElem?_eq_getElem h]; rfl

theorem map_set_put {st : List Ph2A} {i : Nat} (h : i < st.length) {q : Ph2A}
    (hq : q.put = st[i].put) : (st.set i q).map Ph2A.put = st.map Ph2A.put := by
  rw [List.map_set]
  apply List.ext_getElem?
  intro k
  by_cases hk : k = i
  · subst hk
    rw [List.getElem?_set_self (by simpa using h), List.getElem?_map,
      List.getElem?_eq_getElem h, hq]; rfl
  · rw [List.getElem?_set_ne (by omega)]

/-- if the slice `h` is stored as a bitmap, it is at a multiple of 8 -/
def sliceAt (h : Nat) (q : (Nat → Nat) × List Chk) : Prop :=
  ∀ c ∈ q.2, c.id = h → denseAligned (q.1 h) c.body

/-- the gate of the inner loop: one list after the other, as long as something is left -/
def restGate (h : Nat) : (Nat → Bool) → List ((Nat → Nat) × List Chk) → Prop
  | _, [] => True
  | P, q :: qs => sliceAt h q ∧ (count16 (fun x => P x && decide (x ∈ valsAt h q.2)) ≠ 0 →
      restGate h (fun x => P x && decide (x ∈ valsAt h q.2)) qs)

theorem chunk_unique {cs : List Chk} (hw : ChunksWF cs) {c d : Chk} (hc : c ∈ cs) (hd : d ∈ cs)
    (he : c.id = d.id) : c = d := by
  have := List.pairwise_iff_getElem.mp hw.1
  obtain ⟨i, hi, rfl⟩ := List.mem_iff_getElem.mp hc
  obtain ⟨j, hj, rfl⟩ := List.mem_iff_getElem.mp hd
  rcases Nat.lt_trichotomy i j with h | h | h
  · have := this i j hi hj h; omega
  · subst h; rfl
  · have := this j i hj hi h; omega

theorem intersect_rest_aligned {dbg : Bool} {m : Mem} {h : Nat} (n i : Nat) {st : List Ph2A}
    {puts : List ((Nat → Nat) × List Chk)} {tmp bitmap : List Nat} {P : Nat → Bool}
    (hall : st.map Ph2A.put = puts) (hok : ∀ q ∈ st, q.Ok m h)
    (hcom : ∀ q ∈ puts, h ∈ q.2.map Chk.id) (hn : i + n = st.length) (ht : tmp.length = 1024)
    (hb : bitmap.length = 1024) (hP : BufIs bitmap P) :
    ∃ skip st' tmp' bitmap', intersect_rest dbg m h n i (ph2AIts st) tmp bitmap (count16 P)
        = .ok (skip, ph2AIts st', tmp', bitmap') ∧
      Gated (restGate h P (puts.drop i)) (intersect_restA dbg m h n i (ph2AIts st) tmp bitmap (count16 P))
        (.ok (skip, ph2AIts st', tmp', bitmap')) ∧
      st'.map Ph2A.put = puts ∧ (∀ q ∈ st', q.Ok m h) ∧ tmp'.length = 1024 ∧ WordsBuf 1024 bitmap' := by
  induction n generalizing i st tmp bitmap P with
  | zero =>
    have hl : puts.length = st.length := by rw [← hall, List.length_map]
    refine ⟨false, st, tmp, bitmap, rfl, ?_, hall, hok, ht, ⟨hb, hP.words⟩⟩
    rw [List.drop_eq_nil_of_le (by omega)]
    exact Gated.of_true trivial rfl
  | succ n ih =>
    have hlt : i < st.length := by omega
    have hl : puts.length = st.length := by rw [← hall, List.length_map]
    have hai : puts[i]'(by omega) = (st[i]'hlt).put := by
      simp only [← hall, List.getElem_map]
    obtain ⟨it', c, t, e1, hev, hon, hmem, hid, hvals, hok'⟩ :=
      (hok (st[i]'hlt) (List.getElem_mem hlt)).advance (by
        have := hcom _ (List.getElem_mem (l := puts) (n := i) (by omega))
        rw [hai] at this
        exact this)
    have heven := (hok (st[i]'hlt) (List.getElem_mem hlt)).even
    have hwf := (hok (st[i]'hlt) (List.getElem_mem hlt)).wf
    generalize hq : (⟨⟨it', c :: t, (st[i]'hlt).st.all⟩, (st[i]'hlt).pos⟩ : Ph2A) = q at hok'
    have hqit : q.st.it = it' := by rw [← hq]
    have hset : (ph2AIts st).set i it' = ph2AIts (st.set i q) := by
      unfold ph2AIts; rw [List.map_set, hqit]
    obtain ⟨t', b', e2, lt', lb', bb⟩ := uncompress_chunk_and_intersect_spec (dbg := dbg) hon.body ht hb hP
    have hall' := (map_set_put hlt (q := q) (by rw [← hq]; rfl)).trans hall
    have hok'' : ∀ p ∈ st.set i q, p.Ok m h := by
      intro p hp
      rcases mem_set_cases hp with rfl | hp
      · exact hok'
      · exact hok p hp
    have hdrop : puts.drop i = (st[i]'hlt).put :: puts.drop (i + 1) := by
      rw [List.drop_eq_getElem_cons (by omega), hai]
    have hle := count16_le (fun x => P x && decide (x ∈ c.body.vals))
    have hg := uncompress_chunk_and_intersect_aligned (dbg := dbg) hev hon.body e2
    have hsl : denseAligned it'.data c.body ↔ sliceAt h (st[i]'hlt).put := by
      have hd : it'.data = (st[i]'hlt).pos c.id := hon.at_.2.1.2
      rw [hd, hid]
      exact ⟨fun k d hd' hdid => by
        rw [chunk_unique hwf hd' hmem (hdid.trans hid.symm)]; exact k, fun k => k c hmem hid⟩
    replace hg := hg.iff hsl
    have hv' : valsAt h (st[i]'hlt).put.2 = c.body.vals := hvals
    rw [hdrop]
    simp only [intersect_rest, intersect_restA, rdIt_ph2A hlt, ok_bind, It.advanceA_eq heven, e1,
      It.idA_eq hev, hon.body.id, hset, e2]
    have hass : cassert dbg (c.id == h) = .ok () := by simp [cassert, hid]
    have hu : u32 (count16 (fun x => P x && decide (x ∈ c.body.vals)))
        = count16 (fun x => P x && decide (x ∈ c.body.vals)) := u32_lt (by omega)
    simp only [hass, ok_bind, hu]
    by_cases hz : count16 (fun x => P x && decide (x ∈ c.body.vals)) = 0
    · rw [if_pos hz]
      refine ⟨true, _, t', b', rfl, ?_, hall', hok'', lt', ⟨lb', bb.words⟩⟩
      have hgate : restGate h P ((st[i]'hlt).put :: puts.drop (i + 1)) ↔ sliceAt h (st[i]'hlt).put := by
        unfold restGate
        rw [hv']
        exact ⟨fun k => k.1, fun k => ⟨k, fun hne => absurd hz hne⟩⟩
      refine Gated.iff ?_ hgate.symm
      refine ⟨fun hp => ?_, fun hp => ?_⟩
      · rw [hg.1 hp]
        simp only [ok_bind, hu]
        rw [if_pos hz]
        rfl
      · rw [hg.2 hp]; rfl
    · rw [if_neg hz]
      obtain ⟨sk, st', t2, b2, e3, hg2, ha, hk, lt2, wb2⟩ := ih (i + 1) (st := st.set i q) hall' hok''
        (by rw [List.length_set]; omega) lt' lb' bb
      refine ⟨sk, st', t2, b2, e3, ?_, ha, hk, lt2, wb2⟩
      have hgate : restGate h P ((st[i]'hlt).put :: puts.drop (i + 1)) ↔ sliceAt h (st[i]'hlt).put ∧
          restGate h (fun x => P x && decide (x ∈ c.body.vals)) (puts.drop (i + 1)) := by
        show (_ ∧ _) ↔ _
        rw [hv']
        exact ⟨fun k => ⟨k.1, k.2 hz⟩, fun k => ⟨k.1, fun _ => k.2⟩⟩
      refine Gated.iff ?_ hgate.symm
      by_cases hp : sliceAt h (st[i]'hlt).put
      · rw [hg.1 hp]
        simp only [ok_bind, hu]
        rw [if_neg hz]
        exact hg2.iff ⟨fun k => ⟨hp, k⟩, fun k => k.2⟩
      · rw [hg.2 hp]
        exact ⟨fun k => absurd k.1 hp, fun _ => rfl⟩

/-- the gate of one slice -/
def interGate (h : Nat) : List ((Nat → Nat) × List Chk) → Prop
  | [] => True
  | q :: qs => restGate h (fun x => decide (x ∈ valsAt h q.2)) qs

theorem intersect_headers_aligned {dbg : Bool} {m : Mem} {s : IScratch} (n i : Nat)
    {st : List Ph2A} {puts : List ((Nat → Nat) × List Chk)} {H : List Nat} {buf : List Nat} {out : Nat}
    {o : Nat × IScratch × List Nat}
    (hall : st.map Ph2A.put = puts) (hne : 0 < st.length)
    (hH : s.headers.take H.length = H) (hHs : H.Pairwise (· < ·))
    (hHc : ∀ h ∈ H, ∀ q ∈ puts, h ∈ q.2.map Chk.id)
    (hok : ∀ h ∈ H.drop i, ∀ q ∈ st, q.Ok m h)
    (hn : i + n = H.length) (hs : s.Ok)
    (e : intersect_headers dbg m n i (ph2AIts st) s buf out = .ok o) :
    Gated (∀ h ∈ H.drop i, interGate h puts) (intersect_headersA dbg m n i (ph2AIts st) s buf out)
      (.ok o) := by
  induction n generalizing i st s buf out with
  | zero =>
    rw [List.drop_eq_nil_of_le (by omega)]
    exact Gated.of_true (fun _ h => nomatch h) e
  | succ n ih =>
    have hi : i < H.length := by omega
    have hd : H.drop i = (H[i]'hi) :: H.drop (i + 1) := List.drop_eq_getElem_cons hi
    have hrd : rdv s.headers i = .ok (H[i]'hi) := by
      have h1 : s.headers[i]? = H[i]? := by
        have := congrArg (fun L => L[i]?) hH
        simp only [List.getElem?_take_of_lt hi] at this
        exact this
      unfold rdv
      rw [h1, List.getElem?_eq_getElem hi]
    have hcom := hHc (H[i]'hi) (List.getElem_mem hi)
    have hokh : ∀ q ∈ st, q.Ok m (H[i]'hi) := hok (H[i]'hi) (by rw [hd]; exact List.mem_cons_self ..)
    rw [hd]
    generalize H[i]'hi = h at hd hrd hcom hokh
    cases st with
    | nil => simp at hne
    | cons p st =>
    have hp := hokh p List.mem_cons_self
    obtain ⟨q0, puts', rfl⟩ : ∃ a b, puts = a :: b := by rw [← hall]; exact ⟨_, _, rfl⟩
    rw [List.map_cons, List.cons.injEq] at hall
    obtain ⟨ha0, hall'⟩ := hall
    obtain ⟨it', c, t, e1, hev, hon, hmem, hid, hvals, hok'⟩ := hp.advance
      (by have := hcom _ List.mem_cons_self; rw [← ha0] at this; exact this)
    have hcw := hon.wf.head
    obtain ⟨b1, e2, lb1, bb1⟩ := uncompress_chunk_spec (dbg := dbg) hon.body (p := 0)
      (bufIs_self hs.2.1.2) (by rw [hs.2.1.1]; omega)
    rw [hs.2.1.1] at lb1
    have bb1' : BufIs b1 (fun x => decide (x ∈ c.body.vals)) := by
      refine bb1.congr ?_
      intro x hx
      rw [if_pos (by omega)]; rfl
    have hcnt : u32 c.card = count16 (fun x => decide (x ∈ c.body.vals)) := by
      have := hcw.card_le
      rw [u32_lt (by omega), count16_mem hcw.2.sorted hcw.2.bound]; rfl
    generalize hq : (⟨⟨it', c :: t, p.st.all⟩, p.pos⟩ : Ph2A) = q at hok'
    have hqit : q.st.it = it' := by rw [← hq]
    have hqput : q.put = p.put := by rw [← hq]; rfl
    obtain ⟨sk, st', t2, b2, e3, hg, ha2, hk2, lt2, wb2⟩ := intersect_rest_aligned (dbg := dbg)
      (h := h) st.length 1 (st := q :: st) (puts := q0 :: puts')
      (by rw [List.map_cons, hqput, ha0, hall'])
      (by
        intro r hr
        rcases List.mem_cons.mp hr with rfl | hr
        · exact hok'
        · exact hokh r (List.mem_cons_of_mem _ hr))
      hcom (by simp; omega) hs.2.2 lb1 bb1'
    rw [List.drop_one, List.tail_cons] at hg
    have hset : (ph2AIts (p :: st)).set 0 it' = ph2AIts (q :: st) := by
      simp only [ph2AIts, List.map_cons, List.set_cons_zero, hqit]
    have hlen : (ph2AIts (q :: st)).length - 1 = st.length := by simp [ph2AIts]
    have er : rdIt (ph2AIts (p :: st)) 0 = .ok p.st.it := rfl
    have hass : cassert dbg (c.id == h) = .ok () := by simp [cassert, hid]
    have hig : interGate h (q0 :: puts') ↔ restGate h (fun x => decide (x ∈ c.body.vals)) puts' := by
      have hv0 : valsAt h q0.2 = c.body.vals := by rw [← ha0]; exact hvals
      show restGate h (fun x => decide (x ∈ valsAt h q0.2)) puts' ↔ _
      rw [hv0]
    have e2' : uncompress_chunk dbg m it' s.bitmap 0 = .ok (c.card, b1) := e2
    simp only [intersect_headers, hrd, ok_bind, er, e1, hset, hon.body.id, hass, e2', hlen, hcnt, e3] at e
    simp only [intersect_headersA, hrd, ok_bind, er, It.advanceA_eq hp.even, e1, hset, It.idA_eq hev,
      hon.body.id, hass, uncompress_chunkA_eq hev, e2', hlen, hcnt]
    refine Gated.iff ?_ List.forall_mem_cons.symm
    refine Gated.iff ?_ (and_congr_left' hig.symm)
    have hok2 : ∀ h ∈ H.drop (i + 1), ∀ q ∈ st', q.Ok m h := by
      intro h' hh q hq
      refine (hk2 q hq).mono ?_
      have hsd : (H.drop i).Pairwise (· < ·) := hHs.drop
      rw [hd] at hsd
      exact Nat.le_of_lt ((List.pairwise_cons.mp hsd).1 h' hh)
    have hne' : 0 < st'.length := by
      have h1 := congrArg List.length ha2
      simp only [List.length_map, List.length_cons] at h1
      omega
    have rest : Gated (∀ h ∈ H.drop (i + 1), interGate h (q0 :: puts'))
        (if sk = true then intersect_headersA dbg m n (i + 1) (ph2AIts st')
            { s with tmp := t2, bitmap := b2 } buf out
          else do
            let (k, buf) ← decode_bitmap (vecWords b2) 1024 (u32 (h * 65536)) buf out
            intersect_headersA dbg m n (i + 1) (ph2AIts st') { s with tmp := t2, bitmap := b2 } buf
              (out + k)) (.ok o) := by
      cases sk with
      | true =>
        simp only [if_true] at e ⊢
        exact ih (i + 1) (s := { s with tmp := t2, bitmap := b2 }) ha2 hne' hH hok2 (by omega)
          ⟨hs.1, wb2, lt2⟩ e
      | false =>
        simp only [Bool.false_eq_true, if_false] at e ⊢
        obtain ⟨⟨k, buf1⟩, e4, e⟩ := bind_ok e
        simp only [e4, ok_bind]
        exact ih (i + 1) (s := { s with tmp := t2, bitmap := b2 }) ha2 hne' hH hok2 (by omega)
          ⟨hs.1, wb2, lt2⟩ e
    by_cases hR : restGate h (fun x => decide (x ∈ c.body.vals)) puts'
    · rw [hg.1 hR]
      exact rest.iff ⟨fun k => ⟨hR, k⟩, fun k => k.2⟩
    · rw [hg.2 hR]
      exact ⟨fun k => absurd k.1 hR, fun _ => rfl⟩

theorem ItsPut.ph2A {m : Mem} {its : List It} {qs : List ((Nat → Nat) × List Chk)}
    (h : ItsPut m its qs) : ∃ st : List Ph2A, ph2AIts st = its ∧ st.map Ph2A.put = qs ∧
      ∀ h, ∀ q ∈ st, q.Ok m h := by
  induction its generalizing qs with
  | nil =>
    cases qs with
    | nil => exact ⟨[], rfl, rfl, fun _ _ h => nomatch h⟩
    | cons q qs => exact absurd h (by simp [ItsPut])
  | cons it its ih =>
    cases qs with
    | nil => exact absurd h (by simp [ItsPut])
    | cons q qs =>
      obtain ⟨⟨he, h1⟩, h2⟩ := h
      obtain ⟨st, e1, e2, hok⟩ := ih h2
      refine ⟨⟨⟨it, q.2, q.2⟩, q.1⟩ :: st, ?_, ?_, ?_⟩
      · rw [← e1]; rfl
      · rw [← e2]; rfl
      · intro h p hp
        rcases List.mem_cons.mp hp with rfl | hp
        · exact ⟨he, h1, h1.wf, rfl⟩
        · exact hok h p hp

theorem intersection_sorted_aligned {dbg : Bool} {pad : Nat} {m : Mem} {ss : List SSeq}
    {css : List (List Chk)} {puts : List ((Nat → Nat) × List Chk)} {s : IScratch} {buf : List Nat}
    {out : Nat} {o : Nat × IScratch × List Nat} (hne : ss ≠ []) (h : SeqsAt pad m ss css)
    (hi : ItsPut m (ss.map SSeq.begin) puts) (hcs : puts.map Prod.snd = css)
    (hst : ∀ q ∈ ss, Steady q.begin) (hs : s.Ok)
    (e : intersection_sorted dbg m ss s buf out = .ok o) :
    Gated (∀ x, (∀ q ∈ puts, x ∈ q.2.map Chk.id) → interGate x puts)
      (intersection_sortedA dbg m ss s buf out) (.ok o) := by
  obtain ⟨it0, c, headers', H, er, hid, e1, lh, hH, hHs⟩ := candidate_phase_spec hne h hs
  obtain ⟨st, i2, a2, ok2⟩ := hi.ph2A
  have hpos : 0 < st.length := by
    have := congrArg List.length i2
    simp only [ph2AIts, List.length_map] at this
    have := List.length_pos_iff.mpr hne
    omega
  have hsteady : ∀ it ∈ ss.map SSeq.begin, Steady it := by
    intro it hit
    obtain ⟨q, hq, rfl⟩ := List.mem_map.mp hit
    exact hst q hq
  have hs0 := hsteady it0 (rdIt_mem er)
  unfold intersection_sorted at e
  unfold intersection_sortedA
  simp only [er, ok_bind, It.idA_eq hs0.1, hid, candidate_whileA_eq _ hsteady, e1] at e ⊢
  rw [← i2] at e ⊢
  have hmem : ∀ x, x ∈ H ↔ ∀ q ∈ puts, x ∈ q.2.map Chk.id := by
    intro x
    rw [hHs.2 x, ← hcs]
    constructor
    · intro k q hq
      exact k _ (List.mem_map_of_mem (List.mem_map_of_mem hq))
    · intro k a ha
      obtain ⟨cs, hcs', rfl⟩ := List.mem_map.mp ha
      obtain ⟨q, hq, rfl⟩ := List.mem_map.mp hcs'
      exact k q hq
  refine (Gated.step (Q := True) e (fun v ev => intersect_headers_aligned (dbg := dbg)
    (s := { s with headers := headers' }) H.length 0 (st := st) a2 hpos hH hHs.1
    (fun x hx => (hmem x).mp hx) (fun x _ => ok2 x) (by omega) ⟨lh, hs.2.1, hs.2.2⟩ ev)
    (fun _ _ e => Gated.same e)).iff ?_
  rw [List.drop_zero]
  constructor
  · exact fun k x hx => k.1 x ((hmem x).mpr hx)
  · exact fun k => ⟨fun x hx => k x ((hmem x).mp hx), trivial⟩

end Sliced
