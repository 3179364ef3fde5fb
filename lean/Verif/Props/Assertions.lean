import Verif.Proof.Erase
import Verif.Props.Build
import Verif.Props.Enumerator
import Verif.Props.GeqEnumerator
import Verif.Props.ManyWay
import Verif.Props.Index
/-!
# C33: assertions

`dbg = true` is the build with assertions, `dbg = false` the one with `-DNDEBUG`.
Two parts.  For all arguments, including corrupt memory and invalid lists, the build with assertions
either fails an assertion or does exactly what the other one does (`C33_erasure_*`; undefined
behaviour and exceptions count as outcomes, an `assert` has no side effect).  On valid input it
fails none, so both return the same result.
-/
namespace Sliced

variable {dbg : Bool} {xs ys : List Nat} {m : Mem} {s : SSeq} {pad : Nat}

/-- Both builds finish without error and with the same result. -/
def SameOk {α : Type} (f : Bool → Res α) : Prop := ∃ r, f true = .ok r ∧ f false = .ok r

theorem Erase.sameOk {α : Type} {f : Bool → Res α} (h : Erase (f true) (f false))
    (hok : ∃ r, f true = .ok r) : SameOk f := by
  obtain ⟨r, hr⟩ := hok
  rcases h with h | h
  · rw [hr] at h; cases h
  · exact ⟨r, hr, h ▸ hr⟩

/-! ## All inputs -/

/-- C33: building, on any list, after any earlier output. -/
theorem C33_erasure_build (data : List Nat) (out : List UInt8) :
    build_sequence true data out = .error .abort ∨
      build_sequence true data out = build_sequence false data out :=
  build_sequence_erase data out

/-- C33: building an index from any file contents and with any parameters. -/
theorem C33_erasure_index (params : Params) (data : List Nat) :
    build_index true params data = .error .abort ∨
      build_index true params data = build_index false params data :=
  build_index_erase params data

/-- C33: the queries, in any memory and on any sequence object. -/
theorem C33_erasure_queries (m : Mem) (s : SSeq) (v w : Nat) (out : List Nat) :
    (s.decode true m out v = .error .abort ∨ s.decode true m out v = s.decode false m out v) ∧
    (s.contains true m v = .error .abort ∨ s.contains true m v = s.contains false m v) ∧
    (s.select true m v w = .error .abort ∨ s.select true m v w = s.select false m v w) ∧
    (s.next_geq true m v = .error .abort ∨ s.next_geq true m v = s.next_geq false m v) ∧
    (s.uncompress true m out = .error .abort ∨ s.uncompress true m out = s.uncompress false m out) :=
  ⟨decode_erase m s out v, contains_erase m s v, select_erase m s v w, next_geq_erase m s v,
    uncompress_erase m s out⟩

/-- C33: the enumerators, in any memory and in any state. -/
theorem C33_erasure_enumerators (m : Mem) (s : SSeq) (e : Enum) (g : GeqEnum) (v : Nat)
    (buf vs : List Nat) :
    (Enum.init true m buf s v = .error .abort ∨
      Enum.init true m buf s v = Enum.init false m buf s v) ∧
    (e.next true m = .error .abort ∨ e.next true m = e.next false m) ∧
    (g.run true m vs = .error .abort ∨ g.run true m vs = g.run false m vs) :=
  ⟨enum_init_erase m buf s v, enum_next_erase m e, geq_run_erase m g vs⟩

/-- C33: the set operations, in any memory, on any sequence objects, with any scratch contents. -/
theorem C33_erasure_set_operations (tab : Nat → List Nat)
    (sort : (SSeq → Nat) → List SSeq → List SSeq) (m : Mem) (l r : SSeq) (ss : List SSeq)
    (x : List Nat) (us : UScratch) (is : IScratch) (ms : MScratch) (buf : List Nat) (p : Nat) :
    (pairwise_intersection true tab m l r x buf p = .error .abort ∨
      pairwise_intersection true tab m l r x buf p
        = pairwise_intersection false tab m l r x buf p) ∧
    (pairwise_union true m l r us buf p = .error .abort ∨
      pairwise_union true m l r us buf p = pairwise_union false m l r us buf p) ∧
    (intersection true sort m ss is buf p = .error .abort ∨
      intersection true sort m ss is buf p = intersection false sort m ss is buf p) ∧
    (union_many true m ss ms buf p = .error .abort ∨
      union_many true m ss ms buf p = union_many false m ss ms buf p) :=
  ⟨pairwise_intersection_erase .., pairwise_union_erase .., intersection_erase ..,
    union_many_erase ..⟩

/-- C33: the alternative "assertion fails" is there for a reason: this list makes only the build
with assertions stop. -/
theorem C33_can_abort : build_sequence true [7, 4294967295] [] = .error .abort ∧
    ∃ r, build_sequence false [7, 4294967295] [] = .ok r := by
  have hs : ([7, 4294967295] : List Nat).Pairwise (· < ·) := by simp
  have hb : ∀ x ∈ ([7, 4294967295] : List Nat), x < 4294967296 := by simp
  have hu : ∃ u ∈ ([7, 4294967295] : List Nat), 4294901760 ≤ u := ⟨4294967295, by simp, by omega⟩
  refine ⟨C02_debug_abort hs hb hu, ?_⟩
  obtain ⟨st, st', bytes, h, -⟩ := C02_release_drops hs hb hu (by simp)
  exact ⟨_, h⟩

/-! ## Valid input -/

/-- C33: building from a valid list. -/
theorem C33_build (hv : Valid xs) (out : List UInt8) :
    SameOk (fun d => build_sequence d xs out) := by
  obtain ⟨st, k, h, -⟩ := build_sequence_spec (dbg := true) hv out
  exact Erase.sameOk (f := fun d => build_sequence d xs out) (build_sequence_erase xs out) ⟨_, h⟩

/-- C33: building from a good collection. -/
theorem C33_index {params : Params} {univ : Nat} {lists : List (List Nat)}
    (hg : GoodCollection params univ lists) :
    SameOk (fun d => build_index d params (collection univ lists)) := by
  obtain ⟨st, h, -⟩ := build_index_spec (dbg := true) hg
  exact Erase.sameOk (f := fun d => build_index d params (collection univ lists))
    (build_index_erase ..) ⟨_, h⟩

/-- C33: sequences taken from a saved index. -/
theorem C33_index_get {params : Params} {univ a : Nat} {lists : List (List Nat)} {offs : List Nat}
    {seqs : List UInt8} {st : Stats} (hg : GoodCollection params univ lists)
    (hb : build_index dbg params (collection univ lists) = .ok (offs, seqs, st))
    (hsz : (save_index offs seqs).length < 18446744073709551616)
    (hl : Loaded m a (save_index offs seqs))
    (hr : Readable m (a + (save_index offs seqs).length) 31) :
    ∃ idx, SIndex.mmap m a = .ok idx ∧
      ∀ i, i < (keptLists params lists).length → SameOk (fun d => idx.get d m i) := by
  obtain ⟨idx, h1, -, -, h4⟩ := C18_round_trip hg hb hsz hl hr
  refine ⟨idx, h1, fun i hi => ?_⟩
  obtain ⟨s, bytes, hs, -⟩ := h4 i _ (List.getElem?_eq_getElem hi) true
  exact Erase.sameOk (f := fun d => idx.get d m i) (index_get_erase ..) ⟨_, hs⟩

/-- C33: the queries that return a number, on a stored valid list. -/
theorem C33_queries (hv : Valid xs) (hs : Stored dbg xs pad m s) {v : Nat} (h : v < 4294967296)
    (w : Nat) :
    SameOk (fun d => s.contains d m v) ∧ SameOk (fun d => s.next_geq d m v) ∧
      SameOk (fun d => s.select d m v w) := by
  refine ⟨Erase.sameOk (f := fun d => s.contains d m v) (contains_erase ..)
      ⟨_, C04_contains hv hs h⟩,
    Erase.sameOk (f := fun d => s.next_geq d m v) (next_geq_erase ..) ⟨_, C06_find hv hs h⟩,
    Erase.sameOk (f := fun d => s.select d m v w) (select_erase ..) ?_⟩
  by_cases hlt : v < xs.length
  · exact ⟨_, C05_select hv hs hlt w⟩
  · exact ⟨_, C05_select_out hv hs (by omega) h w⟩

/-- C33: `decode` on a stored valid list. -/
theorem C33_decode (hv : Valid xs) (hs : Stored dbg xs 31 m s) (out : List Nat) (p : Nat)
    (hcap : p + xs.length + 23 ≤ out.length) : SameOk (fun d => s.decode d m out p) := by
  obtain ⟨o, h, -⟩ := C01_decode (dbg' := true) hv hs out p hcap
  exact Erase.sameOk (f := fun d => s.decode d m out p) (decode_erase ..) ⟨_, h⟩

/-- C33: `uncompress` on a stored valid list. -/
theorem C33_uncompress (hv : Valid xs) (hs : Stored dbg xs pad m s) (out : List Nat)
    (hw : ∀ w ∈ out, w < 18446744073709551616)
    (hcap : ∀ x ∈ xs, (x / 65536 + 1) * 1024 ≤ out.length) :
    SameOk (fun d => s.uncompress d m out) := by
  obtain ⟨o, h, -⟩ := C08_uncompress (dbg' := true) hv hs out hw hcap
  exact Erase.sameOk (f := fun d => s.uncompress d m out) (uncompress_erase ..) ⟨_, h⟩

theorem enum_nexts_erase (m : Mem) (k : Nat) (e : Enum) :
    Erase (Enum.nexts true m k e) (Enum.nexts false m k e) := by
  induction k generalizing e with
  | zero => exact Erase.refl _
  | succ k ih =>
    unfold Enum.nexts
    exact Erase.bind (enum_next_erase m e) (fun a => ih a)

/-- C33: the enumerator on a stored valid list, after any number of steps. -/
theorem C33_enumerator (hv : Valid xs) (hs : Stored dbg xs 31 m s) (pte : Nat)
    (buf : List Nat) (hbuf : buf.length = 65536) (k : Nat) (hk : k < 4294967296) :
    SameOk (fun d => Enum.init d m buf s pte >>= Enum.nexts d m k) := by
  obtain ⟨e, e', h1, h2, -⟩ := C09_enumerator (dbg' := true) hv hs pte buf hbuf k hk
  refine Erase.sameOk (f := fun d => Enum.init d m buf s pte >>= Enum.nexts d m k)
    (Erase.bind (enum_init_erase ..) (fun a => enum_nexts_erase m k a)) ⟨e', ?_⟩
  simp only [h1, ok_bind, h2]

/-- C33: `next_geq_enumerator`, on the histories of C15. -/
theorem C33_next_geq_enumerator (hv : Valid xs) (hs : Stored dbg xs pad m s) (v : Nat)
    (vs : List Nat) (hch : Consecutive (Close xs) v vs) (hb : ∀ w ∈ v :: vs, w < 4294967296) :
    ∃ e, GeqEnum.new m s = .ok e ∧ SameOk (fun d => GeqEnum.run d m e (v :: vs)) := by
  obtain ⟨e, h1, -, h2⟩ := C15_history_partial (dbg' := true) hv hs v vs hch hb
  exact ⟨e, h1, Erase.sameOk (f := fun d => GeqEnum.run d m e (v :: vs)) (geq_run_erase ..) ⟨_, h2⟩⟩

/-- C33: pairwise intersection of stored valid lists. -/
theorem C33_pairwise_intersection {tab : Nat → List Nat} {l r : SSeq} {dbg₂ : Bool} (ht : TabOk tab)
    (hx : Valid xs) (hy : Valid ys) (hl : Stored dbg xs 31 m l) (hr : Stored dbg₂ ys 31 m r)
    (x : List Nat) (hs : x.length = 1024) (out : List Nat)
    (hcap : min xs.length ys.length + 23 ≤ out.length) :
    SameOk (fun d => pairwise_intersection d tab m l r x out 0) := by
  obtain ⟨Z, x', o, -, h, -⟩ := C10_intersection_exists (dbg := true) ht hx hy hl hr x hs out hcap
  exact Erase.sameOk (f := fun d => pairwise_intersection d tab m l r x out 0)
    (pairwise_intersection_erase ..) ⟨_, h⟩

/-- C33: pairwise union of stored valid lists. -/
theorem C33_pairwise_union {l r : SSeq} {dbg₂ : Bool} {a b : Nat} {bx bY : List UInt8}
    (hx : Valid xs) (hy : Valid ys) (hl : StoredAt dbg xs 31 m a bx l)
    (hr : StoredAt dbg₂ ys 31 m b bY r)
    (hpos : a = b ∨ a + bx.length ≤ b ∨ b + bY.length ≤ a) (us : UScratch) (hs : us.Ok)
    (out : List Nat) (hcap : xs.length + ys.length + 23 ≤ out.length) :
    SameOk (fun d => pairwise_union d m l r us out 0) := by
  obtain ⟨Z, x', o, -, h, -⟩ := C11_union_exists (dbg := true) hx hy hl hr hpos us hs out hcap
  exact Erase.sameOk (f := fun d => pairwise_union d m l r us out 0)
    (pairwise_union_erase ..) ⟨_, h⟩

/-- C33: the many-way operations on stored valid lists. -/
theorem C33_many {sort : (SSeq → Nat) → List SSeq → List SSeq} (hsort : SortOk sort)
    {ps : List (List Nat × SSeq)} (hps : StoredAll dbg pad m ps) (hne : ps ≠ [])
    (is : IScratch) (his : is.Ok) (ms : MScratch) (hms : ms.Ok) (out : List Nat)
    (hcap : (ps.map (fun p => p.1.length)).sum ≤ out.length) :
    SameOk (fun d => intersection d sort m (ps.map Prod.snd) is out 0) ∧
      SameOk (fun d => union_many d m (ps.map Prod.snd) ms out 0) := by
  constructor
  · obtain ⟨p, t, rfl⟩ := List.exists_cons_of_ne_nil hne
    rw [List.map_cons, List.sum_cons] at hcap
    obtain ⟨Z, qs, s', o, -, h, -⟩ := C12_intersection_exists (dbg := true) hsort hps
      (List.mem_cons_self ..) is his out (by omega)
    exact Erase.sameOk (f := fun d => intersection d sort m ((p :: t).map Prod.snd) is out 0)
      (intersection_erase ..) ⟨_, h⟩
  · obtain ⟨Z, s', o, -, h, -⟩ := C13_union_exists (dbg := true) hps hne ms hms out hcap
    exact Erase.sameOk (f := fun d => union_many d m (ps.map Prod.snd) ms out 0)
      (union_many_erase ..) ⟨_, h⟩

-- a list with a slice stored as blocks and several slices, queried in both builds
example : ∃ m s, Stored false [3, 5, 300, 70000] 0 m s ∧ SameOk (fun d => s.select d m 2 0) ∧
    SameOk (fun d => s.next_geq d m 301) := by
  obtain ⟨m, s, h⟩ := stored_exists false small_valid 0
  exact ⟨m, s, h, (C33_queries small_valid h (v := 2) (by omega) 0).2.2,
    (C33_queries small_valid h (v := 301) (by omega) 0).2.1⟩

end Sliced
