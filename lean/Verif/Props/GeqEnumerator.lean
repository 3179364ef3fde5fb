import Verif.Props.Queries
import Verif.Props.Size
import Verif.Proof.GeqEnum
/-!
# `next_geq_enumerator` (C15)

Full statement one expects (false, see `C15_wrong_after_long_jump`): for every non-decreasing list of
bounds the answers are those of `next_geq`.  `C15_history_partial` proves it for the histories in
which two consecutive bounds are at most 32 non-empty slices apart; what is missing is the rest,
where the answers depend on bytes that have nothing to do with the query.
-/
namespace Sliced

variable {dbg dbg' : Bool} {xs : List Nat} {pad : Nat} {m : Mem} {s : SSeq}

/-- `v'` does not precede `v`, and at most 32 slices from that of `v` to that of `v'` hold
elements. -/
def Close (xs : List Nat) (v v' : Nat) : Prop :=
  v ≤ v' ∧
    ((slicesOf xs).filter (fun i => decide (v / 65536 ≤ i) && decide (i ≤ v' / 65536))).length ≤ 32

/-- `R` relates `v` and the first of `vs`, and consecutive elements of `vs`. -/
def Consecutive (R : Nat → Nat → Prop) : Nat → List Nat → Prop
  | _, [] => True
  | v, w :: ws => R v w ∧ Consecutive R w ws

theorem close_nojump {xs : List Nat} {v v' : Nat} {p cur : List Chk}
    (hc : Close xs v v') (hcs : chunksOf xs = p ++ cur) (hw : ChunksWF cur)
    (hids : ∀ c ∈ cur, v / 65536 ≤ c.id) : ∀ c, cur[32]? = some c → v' / 65536 < c.id := by
  intro c h32
  refine Classical.byContradiction (fun hge => ?_)
  have hlen : 32 < cur.length := (List.getElem?_eq_some_iff.mp h32).1
  have hsub : ((cur.take 33).map Chk.id).Sublist (slicesOf xs) := by
    rw [← chunksOf_map_id, hcs]
    exact ((List.take_sublist _ _).trans (List.sublist_append_right _ _)).map _
  have hf := hsub.filter (fun i => decide (v / 65536 ≤ i) && decide (i ≤ v' / 65536))
  rw [List.filter_eq_self.mpr] at hf
  · have := hf.length_le
    rw [List.length_map, List.length_take] at this
    have := hc.2
    omega
  · intro i hi
    obtain ⟨d, hd, rfl⟩ := List.mem_map.mp hi
    have h1 := hids d (List.mem_of_mem_take hd)
    obtain ⟨j, hj⟩ := List.getElem?_of_mem hd
    rw [List.getElem?_take] at hj
    split at hj
    · rename_i hj33
      have hle : d.id ≤ c.id := by
        by_cases h : j = 32
        · rw [h, h32] at hj; cases hj; exact Nat.le_refl _
        · obtain ⟨g1, rfl⟩ := List.getElem?_eq_some_iff.mp hj
          obtain ⟨g2, rfl⟩ := List.getElem?_eq_some_iff.mp h32
          have := List.pairwise_iff_getElem.mp hw.1 j 32 g1 g2 (by omega)
          omega
      simp; omega
    · cases hj

theorem geqEnum_run_spec (hv : Valid xs) (hcs : ChunksWF (chunksOf xs)) (vs : List Nat) :
    ∀ {v : Nat} {e : GeqEnum} {cur : List Chk}, GeqInv pad m (chunksOf xs) v e cur →
      Consecutive (Close xs) v vs → (∀ w ∈ vs, w < 4294967296) →
      GeqEnum.run dbg m e vs
        = .ok (vs.map (fun v => (xs.find? (fun x => decide (v ≤ x))).getD 4294967295)) := by
  induction vs with
  | nil => intro v e cur _ _ _; rfl
  | cons w vs ih =>
    intro v e cur h hch hb
    obtain ⟨p, hp, -⟩ := h.pre
    obtain ⟨it, es, hit⟩ := It.skip_nojump h.it (close_nojump hch.1 hp h.it.wf h.ids)
    obtain ⟨e', cur', e1, h1, -⟩ := GeqEnum.next_geq_spec (dbg := dbg) (chunksOf_ne_nil hv) hcs h
      hch.1.1 (hb w (by simp)) es hit
    unfold GeqEnum.run
    rw [e1, ok_bind]
    simp only
    rw [ih h1 hch.2 (fun w hw => hb w (by simp [hw]))]
    rw [seqElems_chunksOf hv]
    rfl

/-- C15 (partial): a fresh `next_geq_enumerator`, asked any bounds of which consecutive ones are
close, answers each with the least element not below it (or `not_found`). -/
theorem C15_history_partial (hv : Valid xs) (hs : Stored dbg xs pad m s) (v : Nat) (vs : List Nat)
    (hch : Consecutive (Close xs) v vs) (hb : ∀ w ∈ v :: vs, w < 4294967296) :
    ∃ e, GeqEnum.new m s = .ok e ∧ e.size = xs.length ∧
      GeqEnum.run dbg' m e (v :: vs)
        = .ok ((v :: vs).map (fun v => (xs.find? (fun x => decide (v ≤ x))).getD 4294967295)) := by
  have hr := hs.repr hv
  have hn : GeqEnum.new m s = .ok ⟨4294967295, 0, 0, 0, 0, xs.length, s.begin⟩ := by
    unfold GeqEnum.new SSeq.size
    rw [SSeq.cardinality_spec hr, seqElems_chunksOf hv, ok_bind, pure_ok]
  have hinv : GeqInv pad m (chunksOf xs) 0 ⟨4294967295, 0, 0, 0, 0, xs.length, s.begin⟩
      (chunksOf xs) := by
    refine ⟨⟨[], (List.nil_append _).symm, by simp⟩, by simp, hr.begin, ?_⟩
    intro c hc hid
    have := (hr.wf.2 c hc).1
    simp only at hid
    omega
  obtain ⟨it, e1, h1, -⟩ := It.skip_to_value_spec (lb := v / 65536) hr.begin hr.ptrs
  obtain ⟨e', cur', e2, h2, -⟩ := GeqEnum.next_geq_spec (dbg := dbg') (chunksOf_ne_nil hv) hr.wf hinv
    (Nat.zero_le v) (hb v (by simp)) e1 h1
  refine ⟨_, hn, rfl, ?_⟩
  unfold GeqEnum.run
  rw [e2, ok_bind]
  simp only
  rw [geqEnum_run_spec hv hr.wf vs h2 hch (fun w hw => hb w (by simp [hw])), seqElems_chunksOf hv]
  rfl

theorem C06_find (hv : Valid xs) (hs : Stored dbg xs pad m s) {v : Nat} (h : v < 4294967296) :
    s.next_geq dbg' m v = .ok ((xs.find? (fun x => decide (v ≤ x))).getD 4294967295) := by
  have h' := SSeq.next_geq_spec (dbg := dbg') (hs.repr hv) h
  rwa [seqElems_chunksOf hv] at h'

theorem Consecutive.of_pairwise {R S : Nat → Nat → Prop} (hRS : ∀ a b, R a b → S a b) {vs : List Nat} :
    ∀ {v : Nat}, (v :: vs).Pairwise R → Consecutive S v vs := by
  induction vs with
  | nil => intro v _; trivial
  | cons w ws ih =>
    intro v h
    rw [List.pairwise_cons] at h
    exact ⟨hRS _ _ (h.1 w (by simp)), ih h.2⟩

/-- C15 (partial): on those histories it agrees with `s_sequence::next_geq`. -/
theorem C15_agrees_partial (hv : Valid xs) (hs : Stored dbg xs pad m s) (v : Nat) (vs : List Nat)
    (hch : Consecutive (Close xs) v vs) (hb : ∀ w ∈ v :: vs, w < 4294967296) :
    ∃ e, GeqEnum.new m s = .ok e ∧
      GeqEnum.run dbg' m e (v :: vs) = (v :: vs).mapM (s.next_geq dbg' m) := by
  obtain ⟨e, h1, -, h2⟩ := C15_history_partial (dbg' := dbg') hv hs v vs hch hb
  refine ⟨e, h1, ?_⟩
  rw [h2, mapM_ok (g := fun v => (xs.find? (fun x => decide (v ≤ x))).getD 4294967295)]
  exact fun w hw => C06_find hv hs (hb w hw)

/-- C15: on a list with at most 32 non-empty slices every non-decreasing history is answered
correctly. -/
theorem C15_few_slices (hv : Valid xs) (hs : Stored dbg xs pad m s)
    {L : List Nat} (hL : Enumerates L (fun i => ∃ x ∈ xs, x / 65536 = i)) (hfew : L.length ≤ 32)
    (v : Nat) (vs : List Nat) (hmono : (v :: vs).Pairwise (· ≤ ·))
    (hb : ∀ w ∈ v :: vs, w < 4294967296) :
    ∃ e, GeqEnum.new m s = .ok e ∧
      GeqEnum.run dbg' m e (v :: vs) = (v :: vs).mapM (s.next_geq dbg' m) := by
  refine C15_agrees_partial hv hs v vs ?_ hb
  refine Consecutive.of_pairwise (fun a b hab => ⟨hab, ?_⟩) hmono
  rw [hL.unique (slicesOf_enumerates hv)] at hfew
  exact Nat.le_trans (List.length_filter_le _ _) hfew

/-! ## The long jump -/

/-- two elements in slice 0 and one element, with low part 263, in each of the slices 1 to 37 -/
def jumpList : List Nat := [0, 1] ++ (List.range' 1 37).map (fun i => i * 65536 + 263)

theorem jumpList_valid : Valid jumpList := by
  refine ⟨by decide, by decide, by decide⟩

def jumpMem : Mem := memOf 0 ((build_sequence true jumpList []).toOption.map Prod.snd |>.getD []) 31

theorem jump_check :
    (do
      let s ← SSeq.ofAddr jumpMem 0
      let e ← GeqEnum.new jumpMem s
      GeqEnum.run true jumpMem e [1 * 65536, 33 * 65536] : Res (List Nat)).toOption
      = some [1 * 65536 + 263, 33 * 65536 + 1] := by
  decide +kernel

/-- C15: the expectation is false.  There is a valid list on which a fresh enumerator asked for two
increasing bounds returns, for the second one, a value that is not even in the list. -/
theorem C15_wrong_after_long_jump :
    ∃ xs m s e v v' a, Valid xs ∧ Stored true xs 31 m s ∧ GeqEnum.new m s = .ok e ∧
      v ≤ v' ∧ v' < 4294967296 ∧ GeqEnum.run true m e [v, v'] = .ok [v + 263, a] ∧
      a ∉ xs ∧ s.next_geq true m v' = .ok (v' + 263) := by
  obtain ⟨st, bytes, hb, hst⟩ := stored_total true jumpList_valid
  have hmem : jumpMem = memOf 0 bytes 31 := by unfold jumpMem; rw [hb]; rfl
  obtain ⟨s, hs1, hs⟩ := hst jumpMem 0 31 (by rw [hmem]; exact loaded_memOf _ _ _)
    (by rw [hmem]; exact readable_memOf _ _ _)
  have hc := jump_check
  rw [hs1, ok_bind] at hc
  cases he : GeqEnum.new jumpMem s with
  | error x => rw [he] at hc; cases hc
  | ok e =>
    rw [he, ok_bind] at hc
    cases hr : GeqEnum.run true jumpMem e [1 * 65536, 33 * 65536] with
    | error x => rw [hr] at hc; cases hc
    | ok r =>
      rw [hr] at hc
      refine ⟨jumpList, jumpMem, s, e, 1 * 65536, 33 * 65536, 33 * 65536 + 1, jumpList_valid, hs,
        he, by omega, by omega, ?_, by decide, ?_⟩
      · rw [hr]; exact congrArg _ (Option.some.inj hc)
      · rw [C06_find jumpList_valid hs (by omega)]
        decide +kernel

/-- The hypotheses of the positive theorem are met by a history that stays in a slice, moves to the
next block, the next slice and past the end. -/
example : Valid [3, 5, 300, 70000] ∧
    Consecutive (Close [3, 5, 300, 70000]) 4 [4, 6, 301, 70000, 70001, 80000] := by
  refine ⟨small_valid, ?_⟩
  have hlen : (slicesOf [3, 5, 300, 70000]).length ≤ 32 := by
    have := slices_le small_valid
    exact Nat.le_trans this (by decide)
  have : ∀ a b, a ≤ b → Close [3, 5, 300, 70000] a b := fun a b hab =>
    ⟨hab, Nat.le_trans (List.length_filter_le _ _) hlen⟩
  exact ⟨this _ _ (by omega), this _ _ (by omega), this _ _ (by omega), this _ _ (by omega),
    this _ _ (by omega), this _ _ (by omega), trivial⟩

theorem small_close : Consecutive (Close [3, 5, 300, 70000]) 4 [4, 301, 80000] := by
  have hlen : (slicesOf [3, 5, 300, 70000]).length ≤ 32 :=
    Nat.le_trans (slices_le small_valid) (by decide)
  have : ∀ a b, a ≤ b → Close [3, 5, 300, 70000] a b := fun a b hab =>
    ⟨hab, Nat.le_trans (List.length_filter_le _ _) hlen⟩
  exact ⟨this _ _ (by omega), this _ _ (by omega), this _ _ (by omega), trivial⟩

example : ∃ m s e, Stored true [3, 5, 300, 70000] 0 m s ∧ GeqEnum.new m s = .ok e ∧
    GeqEnum.run false m e [4, 4, 301, 80000] = .ok [5, 5, 70000, 4294967295] := by
  obtain ⟨m, s, h⟩ := stored_exists true small_valid 0
  obtain ⟨e, h1, -, h3⟩ := C15_history_partial (dbg' := false) small_valid h 4 [4, 301, 80000] small_close
    (by simp)
  exact ⟨m, s, e, h, h1, h3⟩

example : ∃ m s, Stored true [3, 5, 300, 70000] 0 m s ∧ s.next_geq false m 301 = .ok 70000 := by
  obtain ⟨m, s, h⟩ := stored_exists true small_valid 0
  exact ⟨m, s, h, C06_find small_valid h (by omega)⟩

example : ∃ m s e, Stored true [3, 5, 300, 70000] 0 m s ∧ GeqEnum.new m s = .ok e ∧
    GeqEnum.run false m e [4, 4, 301, 80000] = [4, 4, 301, 80000].mapM (s.next_geq false m) := by
  obtain ⟨m, s, h⟩ := stored_exists true small_valid 0
  obtain ⟨e, h1, h2⟩ := C15_agrees_partial (dbg' := false) small_valid h 4 [4, 301, 80000] small_close
    (by simp)
  exact ⟨m, s, e, h, h1, h2⟩

example : ∃ m s e, Stored true [3, 5, 300, 70000] 0 m s ∧ GeqEnum.new m s = .ok e ∧
    GeqEnum.run false m e [4, 4, 301, 80000] = [4, 4, 301, 80000].mapM (s.next_geq false m) := by
  obtain ⟨m, s, h⟩ := stored_exists true small_valid 0
  obtain ⟨e, h1, h2⟩ := C15_few_slices (dbg' := false) small_valid h (L := [0, 1])
    ⟨by simp, fun v => by simp; omega⟩ (by simp) 4 [4, 301, 80000] (by simp) (by simp)
  exact ⟨m, s, e, h, h1, h2⟩

end Sliced
