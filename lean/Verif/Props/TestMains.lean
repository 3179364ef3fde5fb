import Verif.Model.TestMains
import Verif.Props.Session
import Verif.Props.TestsSound
import Verif.Props.RoomOps
/-!
# C79: the test programs that read queries, from their command lines
-/
namespace Sliced

variable {dbg dbg' : Bool} {m : Mem} {a n : Nat} {p f : String} {minus : Nat → Nat}
  {sort : (SSeq → Nat) → List SSeq → List SSeq} {nsort : List Nat → List Nat}

theorem pairs_test_main_eq {conv : Bool → Nat → Res Nat} {test : String → List (Nat × Nat) → Res (Nat × Bool)}
    (hn : n < 1152921504606846976) (rest : List String) (cs : List Char) :
    pairs_test_main conv test (p :: f :: String.ofList (showNat n) :: rest) cs = (do
      let qs ← scan_pairs conv (rounds n cs) cs
      let r ← test f qs
      return some r) := by
  unfold pairs_test_main
  simp only [toList_show, (C64_stoull n).1 (by omega), ok_bind]
  rw [show reserve 8 n = .ok () from if_pos (by omega), ok_bind]

theorem queries_of_lines_eq (ls : List (List Char)) :
    queries_of_lines dbg minus nsort ls = read_queries dbg nsort (ls.map (tokensOfLine minus)) := by
  induction ls with
  | nil => rfl
  | cons l ls ih =>
    unfold queries_of_lines
    rw [List.map_cons, read_queries, C64_read_query, ih]

theorem lines_test_main_eq {test : String → List (List Nat) → Res (Nat × Bool)}
    (hn : n < 384307168202282326) (rest : List String) (cs : List Char) :
    lines_test_main dbg minus nsort test (p :: f :: String.ofList (showNat n) :: rest) cs = (do
      let qs ← queries_of_lines dbg minus nsort ((splitLines cs).take n)
      let r ← test f qs
      return some r) := by
  unfold lines_test_main
  simp only [toList_show, (C64_stoull n).1 (by omega), ok_bind]
  rw [show reserve 24 n = .ok () from if_pos (by omega), ok_bind]

/-- C79: on any input in which everything is a number, `test_intersect` and `test_union` are the programs of
C49 and C50 on the tokens. -/
theorem C79_pairs (hn : n < 1152921504606846976) (rest : List String) {cs : List Char} (h : none ∉ tokens cs)
    (x : IScratch) (y : UScratch) :
    pairs_test_main conv_glibc (fun _ qs => run_test_intersect dbg sort m a qs x)
      (p :: f :: String.ofList (showNat n) :: rest) cs = some <$> test_intersect dbg sort m a n (tokens cs) x ∧
    pairs_test_main conv_glibc (fun _ qs => run_test_union dbg m a qs y)
      (p :: f :: String.ofList (showNat n) :: rest) cs = some <$> test_union dbg m a n (tokens cs) y := by
  constructor
  · rw [pairs_test_main_eq hn, C64_tokens_pairs n cs h]
    unfold test_intersect run_test_intersect
    simp only [map_eq_pure_bind, bind_assoc]
  · rw [pairs_test_main_eq hn, C64_tokens_pairs n cs h]
    unfold test_union run_test_union
    simp only [map_eq_pure_bind, bind_assoc]

/-- C79: on any input, `test_intersect_many` and `test_union_many` are the programs of C49 and C50 on the tokens
of the lines. -/
theorem C79_lines (hn : n < 384307168202282326) (rest : List String) (cs : List Char)
    (x : IScratch) (y : MScratch) :
    lines_test_main dbg minus nsort (fun _ qs => run_test_intersect_many dbg sort m a qs x)
      (p :: f :: String.ofList (showNat n) :: rest) cs
      = some <$> test_intersect_many dbg sort nsort m a n ((splitLines cs).map (tokensOfLine minus)) x ∧
    lines_test_main dbg minus nsort (fun _ qs => run_test_union_many dbg m a qs y)
      (p :: f :: String.ofList (showNat n) :: rest) cs
      = some <$> test_union_many dbg nsort m a n ((splitLines cs).map (tokensOfLine minus)) y := by
  constructor
  · rw [lines_test_main_eq hn, queries_of_lines_eq, List.map_take]
    unfold test_intersect_many run_test_intersect_many
    simp only [map_eq_pure_bind, bind_assoc]
  · rw [lines_test_main_eq hn, queries_of_lines_eq, List.map_take]
    unfold test_union_many run_test_union_many
    simp only [map_eq_pure_bind, bind_assoc]

/-- C79: with fewer than two arguments these programs print the usage and read nothing; with a second argument
that is not a number, or with a number of queries beyond 2^63 bytes, they end with an exception, whatever the
input is. -/
theorem C79_arguments {conv : Bool → Nat → Res Nat} {test : String → List (Nat × Nat) → Res (Nat × Bool)}
    {test' : String → List (List Nat) → Res (Nat × Bool)} (argv : List String) (cs : List Char) :
    (argv.length < 3 → pairs_test_main conv test argv cs = .ok none ∧
      lines_test_main dbg minus nsort test' argv cs = .ok none) ∧
    (∀ w, argv[2]? = some w → (∀ neg n r, scan w.toList ≠ .num neg n r) →
      pairs_test_main conv test argv cs = .error .exc ∧
      lines_test_main dbg minus nsort test' argv cs = .error .exc) ∧
    (∀ k, argv[2]? = some (String.ofList (showNat k)) →
      (1152921504606846976 ≤ k → pairs_test_main conv test argv cs = .error .exc) ∧
      (384307168202282326 ≤ k → lines_test_main dbg minus nsort test' argv cs = .error .exc)) := by
  refine ⟨fun h => ?_, fun w hw hs => ?_, fun k hk => ?_⟩
  · match argv, h with
    | [], _ => exact ⟨rfl, rfl⟩
    | [_], _ => exact ⟨rfl, rfl⟩
    | [_, _], _ => exact ⟨rfl, rfl⟩
  · match argv, hw with
    | _ :: _ :: w' :: _, hw =>
      simp only [List.getElem?_cons_succ, List.getElem?_cons_zero, Option.some.injEq] at hw
      subst hw
      have : stoull w'.toList = .error .exc := by
        unfold stoull
        cases e : scan w'.toList with
        | eof => rfl
        | fail r => rfl
        | num neg n r => exact absurd e (hs neg n r)
      unfold pairs_test_main lines_test_main
      simp only [this]
      exact ⟨rfl, rfl⟩
  · match argv, hk with
    | _ :: _ :: w' :: _, hk =>
      simp only [List.getElem?_cons_succ, List.getElem?_cons_zero, Option.some.injEq] at hk
      subst hk
      unfold pairs_test_main lines_test_main
      simp only [toList_show]
      by_cases hbig : k < 18446744073709551616
      · rw [(C64_stoull k).1 hbig, ok_bind, ok_bind]
        refine ⟨fun h => ?_, fun h => ?_⟩
        · rw [show reserve 8 k = .error .exc from if_neg (by omega)]
          rfl
        · rw [show reserve 24 k = .error .exc from if_neg (by omega)]
          rfl
      · rw [(C64_stoull k).2.1 (by omega)]
        exact ⟨fun _ => rfl, fun _ => rfl⟩

/-- C79: among the lines that are read, each must begin with a number in a debug build; otherwise the assertion
fails.  In a release build a line without a number is a query of no sequence, which is skipped. -/
theorem C79_blank (ls : List (List Char)) :
    ((∀ l ∈ ls, readQueryText minus nsort l ≠ []) →
      queries_of_lines dbg minus nsort ls = .ok (ls.map (readQueryText minus nsort))) ∧
    ((∃ l ∈ ls, readQueryText minus nsort l = []) → queries_of_lines true minus nsort ls = .error .abort) ∧
    queries_of_lines false minus nsort ls = .ok (ls.map (readQueryText minus nsort)) := by
  induction ls with
  | nil => exact ⟨fun _ => rfl, fun ⟨l, hl, _⟩ => (by cases hl), rfl⟩
  | cons l ls ih =>
    obtain ⟨i1, i2, i3⟩ := ih
    refine ⟨fun h => ?_, fun h => ?_, ?_⟩
    · unfold queries_of_lines
      have : cassert dbg (!(readQueryText minus nsort l).isEmpty) = .ok () := by
        have hne := h l List.mem_cons_self
        cases e : readQueryText minus nsort l with
        | nil => exact absurd e hne
        | cons x xs => unfold cassert; cases dbg <;> rfl
      simp only [this, ok_bind]
      rw [i1 (fun l' hl' => h l' (List.mem_cons_of_mem _ hl'))]
      rfl
    · unfold queries_of_lines
      by_cases hl : readQueryText minus nsort l = []
      · simp only [hl]
        rfl
      · have hx : ∃ l' ∈ ls, readQueryText minus nsort l' = [] := by
          obtain ⟨l', hm, he⟩ := h
          rcases List.mem_cons.mp hm with rfl | hm
          · exact absurd he hl
          · exact ⟨l', hm, he⟩
        cases e : readQueryText minus nsort l with
        | nil => exact absurd e hl
        | cons x xs =>
          simp only [List.isEmpty_cons, Bool.not_false]
          rw [show cassert true true = .ok () from rfl, ok_bind, i2 hx]
          rfl
    · unfold queries_of_lines
      rw [i3]
      rfl

theorem map_some_ok {α : Type} {x : Res α} {v : α} (h : some <$> x = .ok (some v)) : x = .ok v := by
  cases x with
  | error e => cases h
  | ok y =>
    have : some y = some v := Except.ok.inj h
    rw [Option.some.inj this]

/-- C79: whatever the index file is, and whatever the lines are: if `test_intersect_many` or `test_union_many`
reports that everything is good, then each query that was read from a line and names two sequences or more has
the result that the lists have which the enumerators produce. -/
theorem C79_sound {c : Nat} (hn : n < 384307168202282326) (rest : List String) (cs : List Char)
    (x : IScratch) (y : MScratch) :
    (lines_test_main dbg minus nsort (fun _ qs => run_test_intersect_many dbg sort m a qs x)
        (p :: f :: String.ofList (showNat n) :: rest) cs = .ok (some (c, true)) →
      ∃ idx, SIndex.mmap m a = .ok idx ∧ ∀ line ∈ (splitLines cs).take n,
        2 ≤ (readQueryText minus nsort line).length → ∃ ls ss t out ss' t' out',
          (readQueryText minus nsort line).mapM (list_sequence dbg m idx) = .ok ls ∧
          (readQueryText minus nsort line).mapM (idx.get dbg m) = .ok ss ∧
          intersection dbg sort m ss t out = .ok ((fold_common ls).length, ss', t', out') ∧
          out'.take (fold_common ls).length = fold_common ls) ∧
    (lines_test_main dbg minus nsort (fun _ qs => run_test_union_many dbg m a qs y)
        (p :: f :: String.ofList (showNat n) :: rest) cs = .ok (some (c, true)) →
      ∃ idx, SIndex.mmap m a = .ok idx ∧ ∀ line ∈ (splitLines cs).take n,
        2 ≤ (readQueryText minus nsort line).length → ∃ ls ss t out t' out',
          (readQueryText minus nsort line).mapM (list_sequence dbg m idx) = .ok ls ∧
          (readQueryText minus nsort line).mapM (idx.get dbg m) = .ok ss ∧
          union_many dbg m ss t out = .ok ((ls.foldl merge_all []).length, t', out') ∧
          out'.take (ls.foldl merge_all []).length = ls.foldl merge_all []) := by
  constructor
  · intro h
    rw [(C79_lines hn rest cs x y).1] at h
    obtain ⟨idx, hi, hall⟩ := C50_intersect_many (map_some_ok h)
    refine ⟨idx, hi, fun line hl => ?_⟩
    rw [C64_read_query]
    exact hall _ (by rw [← List.map_take]; exact List.mem_map.mpr ⟨line, hl, rfl⟩)
  · intro h
    rw [(C79_lines (sort := sort) hn rest cs x y).2] at h
    obtain ⟨idx, hi, hall⟩ := C50_union_many (map_some_ok h)
    refine ⟨idx, hi, fun line hl => ?_⟩
    rw [C64_read_query]
    exact hall _ (by rw [← List.map_take]; exact List.mem_map.mpr ⟨line, hl, rfl⟩)

/-! ## The queries that the tools draw -/

/-- how many pairs have two different numbers -/
def twoNumbers (qs : List (Nat × Nat)) : Nat := (qs.filter (fun q => decide (q.1 ≠ q.2))).length

theorem showNat_digit : ∀ (n : Nat), ∀ c ∈ showNat n, 48 ≤ c.toNat := by
  have digit : ∀ d, d < 10 → 48 ≤ (Char.ofNat (48 + d)).toNat := by decide
  intro n
  induction n using Nat.strongRecOn with
  | ind n ih =>
    intro c hc
    by_cases h : n < 10
    · rw [showNat_small h, List.mem_singleton] at hc
      rw [hc]
      exact digit n h
    · rw [showNat_large h] at hc
      rcases List.mem_append.mp hc with hc | hc
      · exact ih _ (by omega) c hc
      · rw [List.mem_singleton] at hc
        rw [hc]
        exact digit _ (by omega)

theorem splitLines_pairs (qs : List (Nat × Nat)) :
    splitLines (pairLines qs) = qs.map (fun q => queryLine '\t' [q.1, q.2]) := by
  have hnl : ∀ k, '\n' ∉ showNat k := by
    intro k hk
    have := showNat_digit k _ hk
    revert this
    decide
  have := (C64_split_lines (ls := qs.map (fun q => queryLine '\t' [q.1, q.2])) (by
    intro l hl
    obtain ⟨q, -, rfl⟩ := List.mem_map.mp hl
    simp only [queryLine, List.mem_append, List.mem_cons, not_or]
    exact ⟨hnl _, by decide, hnl _⟩)).1
  rw [← this]
  congr 1
  unfold pairLines
  rw [List.flatMap_map]
  congr 1
  funext q
  simp [queryLine]

theorem realQueries_pairs (qs : List (Nat × Nat)) :
    realQueries (qs.map (fun q => [q.1, q.2])) = twoNumbers qs := by
  unfold realQueries twoNumbers
  rw [List.filter_map, List.length_map]
  congr 2
  funext q
  simp only [Function.comp_apply, List.any_cons, List.any_nil, Bool.or_false]
  rw [Bool.eq_iff_iff]
  simp only [Bool.or_eq_true, decide_eq_true_eq]
  omega

variable {params : Params} {univ : Nat} {lists : List (List Nat)}

/-- C79: the four programs on an index file with a file of pairs, one to a line, as
gen_random_pairwise_queries prints them.  `test_intersect` and `test_union` test all pairs, the other two those
with two different numbers; everything is good. -/
theorem C79_tests {conv : Bool → Nat → Res Nat} (hc : conv = conv_iso ∨ conv = conv_glibc) (hsort : SortOk sort)
    (hns : SortNat nsort) (h : FileAt dbg params univ lists m a) (hn : n < 4294967296) {qs : List (Nat × Nat)}
    (hnum : (keptLists params lists).length ≤ 2147483648)
    (hq : ∀ q ∈ qs, q.1 < (keptLists params lists).length ∧ q.2 < (keptLists params lists).length)
    (hroom : ∀ q ∈ qs, ∀ xs, (keptLists params lists)[q.1]? = some xs ∨
      (keptLists params lists)[q.2]? = some xs → HasRoom xs univ)
    (rest : List String) (x : IScratch) (hx : x.Ok) (y : UScratch) (hy : y.Ok) (z : MScratch) (hz : z.Ok) :
    pairs_test_main conv (fun _ qs => run_test_intersect dbg' sort m a qs x)
      (p :: f :: String.ofList (showNat n) :: rest) (pairLines qs) = .ok (some ((qs.take n).length, true)) ∧
    lines_test_main dbg' minus nsort (fun _ qs => run_test_intersect_many dbg' sort m a qs x)
      (p :: f :: String.ofList (showNat n) :: rest) (pairLines qs) = .ok (some (twoNumbers (qs.take n), true)) ∧
    ((∀ q ∈ qs, eitherSize (keptLists params lists) q + 23 ≤ univ) →
      pairs_test_main conv (fun _ qs => run_test_union dbg' m a qs y)
        (p :: f :: String.ofList (showNat n) :: rest) (pairLines qs) = .ok (some ((qs.take n).length, true))) ∧
    ((∀ q ∈ qs, eitherSize (keptLists params lists) q ≤ univ) →
      lines_test_main dbg' minus nsort (fun _ qs => run_test_union_many dbg' m a qs z)
        (p :: f :: String.ofList (showNat n) :: rest) (pairLines qs)
        = .ok (some (twoNumbers (qs.take n), true))) := by
  have hsc : scan_pairs conv (rounds n (pairLines qs)) (pairLines qs) = .ok (qs.take n) := by
    rw [show rounds n (pairLines qs) = n from if_pos (by omega)]
    rcases hc with rfl | rfl
    · exact (C64_pairs_iso qs n).1 (fun q hm => by have := hq q (List.mem_of_mem_take hm); omega)
    · exact C64_pairs_glibc (fun q hm => by have := hq q hm; omega) n
  have hline : (splitLines (pairLines qs)).map (tokensOfLine minus)
      = (qs.map (fun q => [q.1, q.2])).map lineTokens := by
    rw [splitLines_pairs, List.map_map, List.map_map]
    refine List.map_congr_left (fun q hm => ?_)
    have hb := hq q hm
    simp only [Function.comp_apply]
    unfold tokensOfLine
    have e := lex_queryLine (minus := minus) (sep := '\t') (by decide) [q.1, q.2]
      ((queryLine '\t' [q.1, q.2]).length + 1) [] (by simp) (by simp)
    rw [List.nil_append] at e
    rw [e]
    have h1 : q.1 < 4294967296 := by omega
    have h2 : q.2 < 4294967296 := by omega
    simp [lineTokens, h1, h2, Option.filter]
  have hne : ∀ q ∈ qs.map (fun q : Nat × Nat => [q.1, q.2]), q ≠ [] := by
    intro q hm
    obtain ⟨r, -, rfl⟩ := List.mem_map.mp hm
    simp
  have hq' : ∀ q ∈ qs.map (fun q : Nat × Nat => [q.1, q.2]), ∀ i ∈ q, i < (keptLists params lists).length := by
    intro q hm i hi
    obtain ⟨r, hr, rfl⟩ := List.mem_map.mp hm
    have := hq r hr
    simp only [List.mem_cons, List.not_mem_nil, or_false] at hi
    rcases hi with rfl | rfl
    · exact this.1
    · exact this.2
  have hv := keptLists_valid h.1
  refine ⟨?_, ?_, fun hcap => ?_, fun hcap => ?_⟩
  · have e := C49_intersect (dbg' := dbg') hsort h hn hq hroom x hx
    unfold test_intersect at e
    rw [limit_pairs hn, ok_bind] at e
    rw [pairs_test_main_eq (by omega), hsc, ok_bind]
    unfold run_test_intersect
    rw [e]
    rfl
  · rw [(C79_lines (by omega) rest (pairLines qs) x z).1, hline,
      C49_intersect_many (dbg' := dbg') hsort hns h hne hq' (by
        intro q hm
        obtain ⟨r, hr, rfl⟩ := List.mem_map.mp hm
        have h1 := List.getElem?_eq_getElem (hq r hr).1
        refine ⟨(keptLists params lists)[r.1]'(hq r hr).1, ?_, (hroom r hr _ (Or.inl h1)).1⟩
        unfold asked
        rw [List.map_cons, h1]
        exact List.mem_cons_self) x hx, ← List.map_take, realQueries_pairs]
    rfl
  · have e := C49_union (dbg' := dbg') h hn hq hroom hcap y hy
    unfold test_union at e
    rw [limit_pairs hn, ok_bind] at e
    rw [pairs_test_main_eq (by omega), hsc, ok_bind]
    unfold run_test_union
    rw [e]
    rfl
  · rw [(C79_lines (sort := sort) (by omega) rest (pairLines qs) x z).2, hline,
      C49_union_many (dbg' := dbg') hns h hne hq' (by
        intro q hm Z hZ
        obtain ⟨r, hr, rfl⟩ := List.mem_map.mp hm
        have h1 := List.getElem?_eq_getElem (hq r hr).1
        have h2 := List.getElem?_eq_getElem (hq r hr).2
        have hu := enumerates_uni (hv _ (List.getElem_mem (hq r hr).1)) (hv _ (List.getElem_mem (hq r hr).2))
        have hc := hcap r hr
        have e : Z = uni ((keptLists params lists)[r.1]'(hq r hr).1) ((keptLists params lists)[r.2]'(hq r hr).2) :=
          hZ.unique ⟨hu.1, fun v => by
            rw [hu.2 v]
            unfold asked
            simp [h1, h2]⟩
        rw [e, uni_length (hv _ (List.getElem_mem (hq r hr).1)) (hv _ (List.getElem_mem (hq r hr).2))]
        unfold eitherSize at hc
        rwa [h1, h2] at hc) z hz, ← List.map_take, realQueries_pairs]
    rfl

theorem check_pair_no_room {τ : Type} {ks : List (List Nat)} {idx : SIndex}
    (h : Indexed dbg ks univ m a idx) {merge : List Nat → List Nat → List Nat}
    {op : SSeq → SSeq → τ → List Nat → Res (Nat × τ × List Nat)} {q : Nat × Nat} {xs ys : List Nat}
    (hx : ks[q.1]? = some xs) (hy : ks[q.2]? = some ys) (hr : ¬ (HasRoom xs univ ∧ HasRoom ys univ))
    {b : Bufs} (hb : b.Len univ) {g : Bool} {t : τ} :
    check_pair dbg' m idx merge op q (g, b, t) = .error .ub := by
  obtain ⟨l, bl, hl, ll, sl⟩ := h.get _ _ hx dbg'
  obtain ⟨r, br, hr', lr, sr⟩ := h.get _ _ hy dbg'
  have vx := h.valid _ (List.mem_of_getElem? hx)
  have vy := h.valid _ (List.mem_of_getElem? hy)
  obtain ⟨b1, b2, b3, b4⟩ := hb
  unfold check_pair
  rw [hl]
  simp only [ok_bind]
  by_cases rx : HasRoom xs univ
  · obtain ⟨i', ei, wi⟩ := (C43_decode (dbg' := dbg') vx sl.stored b.i).1 (by rwa [b2])
    rw [ei]
    simp only [ok_bind]
    rw [hr']
    simp only [ok_bind]
    rw [(C43_decode (dbg' := dbg') vy sr.stored b.j).2 (by rw [b3]; exact fun ry => hr ⟨rx, ry⟩)]
    rfl
  · rw [(C43_decode (dbg' := dbg') vx sl.stored b.i).2 (by rwa [b2])]
    rfl

/-- C79: `test_intersect` on a file of pairs of the index is good exactly if each list that it decodes has room
in a vector of `universe()` slots; otherwise it writes beyond the end of such a vector. -/
theorem C79_room {conv : Bool → Nat → Res Nat} (hc : conv = conv_iso ∨ conv = conv_glibc) (hsort : SortOk sort)
    (h : FileAt dbg params univ lists m a) (hn : n < 4294967296) {qs : List (Nat × Nat)}
    (hnum : (keptLists params lists).length ≤ 2147483648)
    (hq : ∀ q ∈ qs, q.1 < (keptLists params lists).length ∧ q.2 < (keptLists params lists).length)
    (rest : List String) (x : IScratch) (hx : x.Ok) :
    ((∀ q ∈ qs.take n, ∀ xs, (keptLists params lists)[q.1]? = some xs ∨
        (keptLists params lists)[q.2]? = some xs → HasRoom xs univ) →
      pairs_test_main conv (fun _ qs => run_test_intersect dbg' sort m a qs x)
        (p :: f :: String.ofList (showNat n) :: rest) (pairLines qs) = .ok (some ((qs.take n).length, true))) ∧
    (¬ (∀ q ∈ qs.take n, ∀ xs, (keptLists params lists)[q.1]? = some xs ∨
        (keptLists params lists)[q.2]? = some xs → HasRoom xs univ) →
      pairs_test_main conv (fun _ qs => run_test_intersect dbg' sort m a qs x)
        (p :: f :: String.ofList (showNat n) :: rest) (pairLines qs) = .error .ub) := by
  have hsc : scan_pairs conv (rounds n (pairLines qs)) (pairLines qs) = .ok (qs.take n) := by
    rw [show rounds n (pairLines qs) = n from if_pos (by omega)]
    rcases hc with rfl | rfl
    · exact (C64_pairs_iso qs n).1 (fun q hm => by have := hq q (List.mem_of_mem_take hm); omega)
    · exact C64_pairs_glibc (fun q hm => by have := hq q hm; omega) n
  rw [pairs_test_main_eq (by omega), hsc, ok_bind]
  obtain ⟨idx, h⟩ := h.indexed
  generalize keptLists params lists = ks at *
  unfold run_test_intersect
  rw [h.map]
  simp only [ok_bind, h.univ]
  replace hq : ∀ q ∈ qs.take n, q.1 < ks.length ∧ q.2 < ks.length :=
    fun q hm => hq q (List.mem_of_mem_take hm)
  generalize qs.take n = qs' at *
  have main := forEach_exact
    (fun _ (s : Bool × Bufs × IScratch) => s.1 = true ∧ s.2.1.Len univ ∧ s.2.2.Ok)
    (fun q => ∀ xs, ks[q.1]? = some xs ∨ ks[q.2]? = some xs → HasRoom xs univ) qs' []
    (true, Bufs.init univ, x) ⟨rfl, Bufs.init_len univ, hx⟩
    (body := check_pair dbg' m idx merge_common (fun l r x out => do
      let (n, _, x, out) ← intersection dbg' sort m [l, r] x out
      return (n, x, out))) (by
      rintro pre q ⟨g, b, t⟩ hqm ⟨hg, hb, ht⟩
      simp only at hg hb ht
      subst hg
      obtain ⟨h1, h2⟩ := hq q hqm
      have e1 : ks[q.1]? = some ks[q.1] := List.getElem?_eq_getElem h1
      have e2 : ks[q.2]? = some ks[q.2] := List.getElem?_eq_getElem h2
      refine ⟨fun hroom => ?_, fun hno => ?_⟩
      · have r1 := hroom _ (.inl e1)
        have r2 := hroom _ (.inr e2)
        have vx := h.valid _ (List.mem_of_getElem? e1)
        have vy := h.valid _ (List.mem_of_getElem? e2)
        have em := merge_common_eq vx.2.1 vy.2.1
        have hlen := inter_length_le ks[q.1] ks[q.2]
        have hr1 := r1.1
        obtain ⟨b', t', e, hb', ht'⟩ := check_pair_good (dbg' := dbg') h (merge := merge_common)
          (op := fun l r x out => do
            let (n, _, x, out) ← intersection dbg' sort m [l, r] x out
            return (n, x, out)) e1 e2 r1 r2 hb (t := t) (k := 0) (Q := IScratch.Ok)
          (by rw [em]; omega) (by
            intro l r bl br _ _ _ _ sl sr
            obtain ⟨ps, t', o', e, -, -, ht', w⟩ := C12_intersection (dbg := dbg') hsort
              (dbg' := dbg) (pad := 31) (m := m) (ps := [(ks[q.1], l), (ks[q.2], r)])
              (Z := inter ks[q.1] ks[q.2])
              (by intro p hp
                  rcases List.mem_cons.mp hp with rfl | hp
                  · exact ⟨vx, sl.stored⟩
                  · rw [List.mem_singleton.mp hp]; exact ⟨vy, sr.stored⟩) (by simp)
              (by refine ⟨inter_sorted vx.2.1, fun v => ?_⟩
                  rw [mem_inter]; simp)
              t ht b.out 0 (by rw [hb.1]; omega)
            refine ⟨t', o', ?_, ht', by rw [em]; exact w⟩
            simp only [List.map_cons, List.map_nil] at e
            rw [e, em]
            rfl)
        exact ⟨_, e, rfl, hb', ht'⟩
      · exact check_pair_no_room h e1 e2 (fun ⟨r1, r2⟩ => hno (fun xs hx => by
          rcases hx with hx | hx
          · rw [e1] at hx; exact Option.some.inj hx ▸ r1
          · rw [e2] at hx; exact Option.some.inj hx ▸ r2)) hb)
  refine ⟨fun hr => ?_, fun hr => ?_⟩
  · obtain ⟨⟨g, b, t⟩, e, hg, -⟩ := main.1 hr
    simp only at hg
    subst hg
    rw [e]
    rfl
  · rw [main.2 hr]
    rfl

/-! ## Examples -/

/-- three pairs in the file, the last with the same number twice -/
example : ∃ m, FileAt true { size := 0 } 80000 sampleColl m 4096 ∧
    pairs_test_main conv_glibc (fun _ qs => run_test_intersect dbg stdSort m 4096 qs IScratch.init)
      ["test_intersect", "index", String.ofList (showNat 1000)] (pairLines [(0, 1), (2, 0), (1, 1)])
      = .ok (some (3, true)) ∧
    lines_test_main dbg (fun n => n) insSort
      (fun _ qs => run_test_intersect_many dbg stdSort m 4096 qs IScratch.init)
      ["test_intersect_many", "index", String.ofList (showNat 1000)] (pairLines [(0, 1), (2, 0), (1, 1)])
      = .ok (some (2, true)) ∧
    pairs_test_main conv_glibc (fun _ qs => run_test_union dbg m 4096 qs UScratch.init)
      ["test_union", "index", String.ofList (showNat 1000)] (pairLines [(0, 1), (2, 0), (1, 1)])
      = .ok (some (3, true)) ∧
    lines_test_main dbg (fun n => n) insSort
      (fun _ qs => run_test_union_many dbg m 4096 qs MScratch.init)
      ["test_union_many", "index", String.ofList (showNat 1000)] (pairLines [(0, 1), (2, 0), (1, 1)])
      = .ok (some (2, true)) := by
  obtain ⟨m, h⟩ := queryFile true
  have hs := queryLists_small
  have hroom : ∀ q ∈ [(0, 1), (2, 0), (1, 1)], ∀ xs, (keptLists { size := 0 } sampleColl)[q.1]? = some xs ∨
      (keptLists { size := 0 } sampleColl)[q.2]? = some xs → HasRoom xs 80000 := by
    intro q _ xs hx
    apply hasRoom_spare
    have : xs ∈ keptLists { size := 0 } sampleColl :=
      hx.elim List.mem_of_getElem? List.mem_of_getElem?
    have := (hs xs this).1
    omega
  have ht : (([(0, 1), (2, 0), (1, 1)] : List (Nat × Nat)).take 1000).length = 3 ∧
      twoNumbers (([(0, 1), (2, 0), (1, 1)] : List (Nat × Nat)).take 1000) = 2 := by
    rw [List.take_of_length_le (by simp)]
    exact ⟨rfl, rfl⟩
  obtain ⟨t1, t2, t3, t4⟩ := C79_tests (dbg' := dbg) (p := "p") (f := "index") (minus := fun n => n) (n := 1000)
    (.inr rfl) stdSort_ok sortNat_insSort h (by omega) (by rw [queryLists]; simp) (by rw [queryLists]; decide)
    hroom [] _ IScratch.init_ok _ UScratch.init_ok _ MScratch.init_ok
  rw [ht.1] at t1 t3
  rw [ht.2] at t2 t4
  exact ⟨m, h, t1, t2, t3 (by rw [queryLists]; decide), t4 (by rw [queryLists]; decide)⟩

/-- an index over seven documents: the blocks of both lists are decoded with writes of eight slots -/
example : ∃ m, FileAt true { size := 0 } 7 [[4], [4, 6]] m 4096 ∧
    pairs_test_main conv_glibc (fun _ qs => run_test_intersect dbg stdSort m 4096 qs IScratch.init)
      ["test_intersect", "index", String.ofList (showNat 1)] (pairLines [(1, 0)]) = .error .ub := by
  have hk : keptLists { size := 0 } [[4], [4, 6]] = [[4], [4, 6]] := by decide
  have hg : GoodCollection { size := 0 } 7 [[4], [4, 6]] := by
    refine ⟨by decide, by decide, ?_⟩
    intro xs hx _
    simp only [List.mem_cons, List.not_mem_nil, or_false] at hx
    rcases hx with rfl | rfl
    · exact valid_of_lt (by decide) (by decide) (by decide)
    · exact valid_of_lt (by decide) (by decide) (by decide)
  obtain ⟨m, h⟩ := fileAt_small (dbg := true) hg (by rw [hk]; decide) (by rw [hk]; decide) 4096
  refine ⟨m, h, (C79_room (dbg' := dbg) (p := "p") (f := "index") (n := 1) (.inr rfl) stdSort_ok h (by omega)
    (by rw [hk]; simp) (by rw [hk]; decide) [] _ IScratch.init_ok).2 (fun hr => ?_)⟩
  rw [hk] at hr
  have h4 := hr (1, 0) (by simp) [4] (Or.inr rfl)
  have := h4.2 0 0 (by omega) (by omega) (by decide +kernel) (by decide) (by decide)
  revert this
  decide

/-- of the lines read, the second has no number -/
example : queries_of_lines true (fun n => n) insSort ["3 1".toList, "".toList, "2 2".toList] = .error .abort ∧
    queries_of_lines false (fun n => n) insSort ["3 1".toList, "".toList, "2 2".toList]
      = .ok [[1, 3], [], [2]] := by
  refine ⟨(C79_blank (dbg := true) _).2.1 ⟨[], by simp, by decide⟩, (C79_blank (dbg := true) _).2.2.trans ?_⟩
  decide

/-- too few arguments, a word in place of the number, and numbers that `reserve` refuses -/
example {test : String → List (Nat × Nat) → Res (Nat × Bool)} :
    pairs_test_main conv_iso test ["test_union", "index"] "1\t2\n".toList = .ok none ∧
    pairs_test_main conv_iso test ["test_union", "index", "all"] "1\t2\n".toList = .error .exc ∧
    pairs_test_main conv_iso test
      ["test_union", "index", String.ofList (showNat 1152921504606846976)] "1\t2\n".toList = .error .exc := by
  refine ⟨rfl, ((C79_arguments (dbg := true) (minus := id) (nsort := id) (test' := fun _ _ => .error .ub)
    _ _).2.1 "all" rfl ?_).1, (((C79_arguments (dbg := true) (minus := id) (nsort := id)
      (test' := fun _ _ => .error .ub) _ _).2.2 _ rfl).1 (Nat.le_refl _))⟩
  intro neg n r h
  have : scan "all".toList = .fail "all".toList := by decide
  rw [this] at h
  cases h

end Sliced
