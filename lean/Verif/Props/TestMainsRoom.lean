import Verif.Props.TestMains
import Verif.Props.Buffer
/-!
# C79, continued: exactly when the vectors of the test programs are large enough
-/
namespace Sliced

variable {dbg dbg' : Bool} {m : Mem} {a n : Nat} {p f : String} {minus : Nat → Nat}
  {sort : (SSeq → Nat) → List SSeq → List SSeq} {nsort : List Nat → List Nat}
  {params : Params} {univ : Nat} {lists : List (List Nat)}

/-! ## test_intersect_many and test_union_many -/

/-- one query, of any number of sequences -/
theorem check_many_exact {τ : Type} {ks : List (List Nat)} {idx : SIndex}
    (h : Indexed dbg ks univ m a idx) {fold : List (List Nat) → List Nat}
    {op : List SSeq → τ → List Nat → Res (Nat × τ × List Nat)} {q : List Nat}
    (hq : ∀ i ∈ q, i < ks.length) {c : Nat} {out : List Nat} {t : τ}
    {Q : τ → Prop} (ht : Q t)
    (hop : ∀ ps, StoredAll dbg 31 m ps → ps.length = q.length → 2 ≤ q.length →
      ps.map Prod.fst = asked ks q →
      Exact ((fold (asked ks q)).length ≤ univ) (op (ps.map Prod.snd) t out) (fun r =>
        r.1 = (fold (asked ks q)).length ∧ Q r.2.1 ∧ Wrote out 0 (fold (asked ks q)) 0 r.2.2)) :
    Exact (2 ≤ q.length → (fold (asked ks q)).length ≤ univ)
      (check_many dbg' m idx fold op q ((c, true), out, t)) (fun s =>
        s.1 = (c + (if 2 ≤ q.length then 1 else 0), true) ∧ s.2.1.length = out.length ∧ Q s.2.2) := by
  by_cases h2 : 2 ≤ q.length
  · obtain ⟨ps, h1, hl, hf, e1, e2⟩ := query_lists (dbg' := dbg') h hq
    have hk := hop ps h1 hl h2 hf
    have hf' : ps.map Prod.fst = asked ks q := hf
    refine ⟨fun hc => ?_, fun hc => ?_⟩
    · obtain ⟨⟨k, t', o'⟩, eo, hk', ht', w⟩ := hk.1 (hc h2)
      simp only at hk' ht' w
      subst hk'
      refine ⟨((c + 1, true), o', t'), ?_, by simp [h2], w.1, ht'⟩
      unfold check_many
      rw [if_neg (by omega), e1]
      simp only [ok_bind]
      rw [e2]
      simp only [ok_bind]
      rw [eo, hf']
      simp only [ok_bind, beq_self_eq_true, Bool.and_self]
      rw [compare_results_good (fun _ _ => rfl)
        (fun i hi => by have := w.2.2.1 i hi; rwa [Nat.zero_add] at this)]
      rfl
    · have eo := hk.2 (fun hc' => hc (fun _ => hc'))
      unfold check_many
      rw [if_neg (by omega), e1]
      simp only [ok_bind]
      rw [e2]
      simp only [ok_bind]
      rw [eo]
      rfl
  · refine ⟨fun _ => ⟨((c, true), out, t), ?_, by simp [h2], rfl, ht⟩, fun hc => absurd (fun h => absurd h h2) hc⟩
    unfold check_many
    rw [if_pos (by omega)]

/-- how many of the queries name two sequences or more -/
def longQueries (qs : List (List Nat)) : Nat := (qs.filter (fun q => decide (2 ≤ q.length))).length

theorem queries_exact {τ : Type} {Q : τ → Prop} {T : List Nat → Prop} {t : τ} (ht : Q t)
    {body : List Nat → (Nat × Bool) × List Nat × τ → Res ((Nat × Bool) × List Nat × τ)} {qs : List (List Nat)}
    (hb : ∀ q ∈ qs, ∀ c out t, out.length = univ → Q t → Exact (T q) (body q ((c, true), out, t)) (fun s =>
      s.1 = (c + (if 2 ≤ q.length then 1 else 0), true) ∧ s.2.1.length = out.length ∧ Q s.2.2)) :
    Exact (∀ q ∈ qs, T q) (forEach body qs ((0, true), List.replicate univ 0, t))
      (fun s => s.1 = (longQueries qs, true)) := by
  refine Exact.mono (forEach_exact (fun pre (s : (Nat × Bool) × List Nat × τ) =>
    s.1 = (longQueries pre, true) ∧ s.2.1.length = univ ∧ Q s.2.2) T qs []
    ((0, true), List.replicate univ 0, t) ⟨rfl, List.length_replicate, ht⟩ ?_) (fun s hs => hs.1)
  rintro pre q ⟨⟨c, g⟩, out, t⟩ hm ⟨hc, ho, ht⟩
  simp only [Prod.mk.injEq] at hc ho ht
  obtain ⟨rfl, rfl⟩ := hc
  refine Exact.mono (hb q hm _ out t ho ht) (fun s hs => ⟨?_, hs.2.1.trans ho, hs.2.2⟩)
  rw [hs.1]
  unfold longQueries
  rw [List.filter_append, List.length_append]
  by_cases h2 : 2 ≤ q.length
  · simp [h2]
  · simp [h2]

/-- C79: whatever the lines are, if they name sequences of the index (and in a debug build none is without a
number): `test_intersect_many` and `test_union_many` test the queries of two sequences or more and find that
everything is good exactly if the result of each fits into `universe()` slots; otherwise they store outside
their vector. -/
theorem C79_room_many (hsort : SortOk sort) (h : FileAt dbg params univ lists m a)
    (hn : n < 384307168202282326) (cs : List Char)
    (hq : ∀ line ∈ (splitLines cs).take n, ∀ i ∈ readQueryText minus nsort line,
      i < (keptLists params lists).length)
    (hne : dbg' = true → ∀ line ∈ (splitLines cs).take n, readQueryText minus nsort line ≠ [])
    (rest : List String) (x : IScratch) (hx : x.Ok) (y : MScratch) (hy : y.Ok) :
    Exact (∀ line ∈ (splitLines cs).take n, 2 ≤ (readQueryText minus nsort line).length → ∀ Z,
        Enumerates Z (fun v => ∀ xs ∈ asked (keptLists params lists) (readQueryText minus nsort line), v ∈ xs) →
        Z.length ≤ univ)
      (lines_test_main dbg' minus nsort (fun _ qs => run_test_intersect_many dbg' sort m a qs x)
        (p :: f :: String.ofList (showNat n) :: rest) cs)
      (fun r => r = some (longQueries (((splitLines cs).take n).map (readQueryText minus nsort)), true)) ∧
    Exact (∀ line ∈ (splitLines cs).take n, 2 ≤ (readQueryText minus nsort line).length → ∀ Z,
        Enumerates Z (fun v => ∃ xs ∈ asked (keptLists params lists) (readQueryText minus nsort line), v ∈ xs) →
        Z.length ≤ univ)
      (lines_test_main dbg' minus nsort (fun _ qs => run_test_union_many dbg' m a qs y)
        (p :: f :: String.ofList (showNat n) :: rest) cs)
      (fun r => r = some (longQueries (((splitLines cs).take n).map (readQueryText minus nsort)), true)) := by
  have hqs : queries_of_lines dbg' minus nsort ((splitLines cs).take n)
      = .ok (((splitLines cs).take n).map (readQueryText minus nsort)) := by
    cases dbg' with
    | false => exact (C79_blank (dbg := false) _).2.2
    | true => exact (C79_blank _).1 (hne rfl)
  rw [lines_test_main_eq hn, lines_test_main_eq hn, hqs, ok_bind, ok_bind]
  obtain ⟨idx, h⟩ := h.indexed
  generalize keptLists params lists = ks at *
  generalize hQ : ((splitLines cs).take n).map (readQueryText minus nsort) = qs at *
  have hq' : ∀ q ∈ qs, ∀ i ∈ q, i < ks.length := by
    subst hQ
    intro q hm
    obtain ⟨l, hl, rfl⟩ := List.mem_map.mp hm
    exact hq l hl
  have hall : ∀ (T : List Nat → Prop), (∀ line ∈ (splitLines cs).take n, T (readQueryText minus nsort line)) ↔
      ∀ q ∈ qs, T q := by
    intro T
    subst hQ
    rw [List.forall_mem_map]
  rw [hall (fun q => 2 ≤ q.length → ∀ Z, Enumerates Z (fun v => ∀ xs ∈ asked ks q, v ∈ xs) → Z.length ≤ univ),
    hall (fun q => 2 ≤ q.length → ∀ Z, Enumerates Z (fun v => ∃ xs ∈ asked ks q, v ∈ xs) → Z.length ≤ univ)]
  have hsorted : ∀ q ∈ qs, ∀ xs ∈ asked ks q, xs.Pairwise (· < ·) := by
    intro q hm xs hx
    unfold asked at hx
    obtain ⟨i, hi, rfl⟩ := List.mem_map.mp hx
    rw [List.getElem?_eq_getElem (hq' q hm i hi), Option.getD_some]
    exact (h.valid _ (List.getElem_mem _)).2.1
  have hlen : ∀ q, (asked ks q).length = q.length := fun q => List.length_map _
  constructor
  · unfold run_test_intersect_many
    rw [h.map]
    simp only [ok_bind, h.univ]
    have main := queries_exact (univ := univ) (Q := IScratch.Ok) (t := x) hx (qs := qs)
      (T := fun q => 2 ≤ q.length → (fold_common (asked ks q)).length ≤ univ)
      (body := check_many dbg' m idx fold_common (fun ss x out => do
        let (n, _, x, out) ← intersection dbg' sort m ss x out
        return (n, x, out))) (by
        intro q hm c out t ho ht
        refine check_many_exact h (hq' q hm) ht (fun ps hps hl h2 hf => ?_)
        have hne' : ps ≠ [] := by intro e; rw [e] at hl; simp at hl; omega
        obtain ⟨hs, hmem⟩ := fold_common_eq (xss := asked ks q) (by rw [hlen]; omega) (hsorted q hm)
        have k := C73_intersection_room (dbg := dbg') hsort hps hne' (Z := fold_common (asked ks q))
          ⟨hs, fun v => by rw [hmem, ← hf, List.forall_mem_map]⟩ t ht out 0 (Nat.zero_le _)
        rw [Nat.zero_add, ho] at k
        refine ⟨fun hc => ?_, fun hc => ?_⟩
        · obtain ⟨qs', t', o', e, ht', w⟩ := k.1 hc
          exact ⟨(_, t', o'), by rw [e]; rfl, rfl, ht', w⟩
        · rw [k.2 (by omega)]
          rfl)
    refine (Exact.congr (T := ∀ q ∈ qs, 2 ≤ q.length → (fold_common (asked ks q)).length ≤ univ) ?_ ?_)
    · refine ⟨fun hc => ?_, fun hc => ?_⟩
      · obtain ⟨⟨r, s⟩, e, hr⟩ := main.1 hc
        simp only at hr
        subst hr
        exact ⟨_, by rw [e]; rfl, rfl⟩
      · rw [main.2 hc]
        rfl
    · refine ⟨fun hc q hm h2 Z hZ => ?_, fun hc q hm h2 => ?_⟩
      · obtain ⟨hs, hmem⟩ := fold_common_eq (xss := asked ks q) (by rw [hlen]; omega) (hsorted q hm)
        rw [hZ.unique ⟨hs, hmem⟩]
        exact hc q hm h2
      · obtain ⟨hs, hmem⟩ := fold_common_eq (xss := asked ks q) (by rw [hlen]; omega) (hsorted q hm)
        exact hc q hm h2 _ ⟨hs, hmem⟩
  · unfold run_test_union_many
    rw [h.map]
    simp only [ok_bind, h.univ]
    have main := queries_exact (univ := univ) (Q := MScratch.Ok) (t := y) hy (qs := qs)
      (T := fun q => 2 ≤ q.length → ((asked ks q).foldl merge_all []).length ≤ univ)
      (body := check_many dbg' m idx (fun ls => ls.foldl merge_all [])
        (fun ss x out => union_many dbg' m ss x out)) (by
        intro q hm c out t ho ht
        refine check_many_exact h (hq' q hm) ht (fun ps hps hl h2 hf => ?_)
        have hne' : ps ≠ [] := by intro e; rw [e] at hl; simp at hl; omega
        obtain ⟨hs, hmem⟩ := fold_all_eq (hsorted q hm)
        have k := C73_union_room (dbg := dbg') hps hne' (Z := (asked ks q).foldl merge_all [])
          ⟨hs, fun v => by rw [hmem, ← hf]; simp⟩ t ht out 0 (Nat.zero_le _)
        rw [Nat.zero_add, ho] at k
        refine ⟨fun hc => ?_, fun hc => ?_⟩
        · obtain ⟨t', o', e, ht', w⟩ := k.1 hc
          exact ⟨(_, t', o'), e, rfl, ht', w⟩
        · exact k.2 (by omega))
    refine (Exact.congr (T := ∀ q ∈ qs, 2 ≤ q.length → ((asked ks q).foldl merge_all []).length ≤ univ) ?_ ?_)
    · refine ⟨fun hc => ?_, fun hc => ?_⟩
      · obtain ⟨⟨r, s⟩, e, hr⟩ := main.1 hc
        simp only at hr
        subst hr
        exact ⟨_, by rw [e]; rfl, rfl⟩
      · rw [main.2 hc]
        rfl
    · refine ⟨fun hc q hm h2 Z hZ => ?_, fun hc q hm h2 => ?_⟩
      · obtain ⟨hs, hmem⟩ := fold_all_eq (hsorted q hm)
        rw [hZ.unique ⟨hs, hmem⟩]
        exact hc q hm h2
      · obtain ⟨hs, hmem⟩ := fold_all_eq (hsorted q hm)
        exact hc q hm h2 _ ⟨hs, hmem⟩

/-! ## test_union -/

variable {offs : List Nat} {seqs : List UInt8} {st : Stats}

/-- C79: `test_union` on a mapped index file with 31 unused bytes in its last page is good exactly if each list
that it decodes has room in a vector of `universe()` slots and each union can be written there (C69); otherwise
it stores outside a vector. -/
theorem C79_room_union {conv : Bool → Nat → Res Nat} (hc : conv = conv_iso ∨ conv = conv_glibc)
    (hg : GoodCollection params univ lists)
    (hb : build_index dbg params (collection univ lists) = .ok (offs, seqs, st))
    (hsz : (save_index offs seqs).length < 18446744073709551616) {P : Nat} (a : Nat)
    (hP : 31 ≤ (P - (save_index offs seqs).length % P) % P) (hn : n < 4294967296) {qs : List (Nat × Nat)}
    (hnum : (keptLists params lists).length ≤ 2147483648)
    (hq : ∀ q ∈ qs, q.1 < (keptLists params lists).length ∧ q.2 < (keptLists params lists).length)
    (rest : List String) (x : UScratch) (hx : x.Ok) :
    Exact (∀ q ∈ qs.take n, (∀ xs, (keptLists params lists)[q.1]? = some xs ∨
        (keptLists params lists)[q.2]? = some xs → HasRoom xs univ) ∧ CanUnite P (keptLists params lists) univ q)
      (pairs_test_main conv (fun _ qs => run_test_union dbg' (mapped P a (save_index offs seqs)) a qs x)
        (p :: f :: String.ofList (showNat n) :: rest) (pairLines qs))
      (fun r => r = some ((qs.take n).length, true)) := by
  have hsc : scan_pairs conv (rounds n (pairLines qs)) (pairLines qs) = .ok (qs.take n) := by
    rw [show rounds n (pairLines qs) = n from if_pos (by omega)]
    rcases hc with rfl | rfl
    · exact (C64_pairs_iso qs n).1 (fun q hm => by have := hq q (List.mem_of_mem_take hm); omega)
    · exact C64_pairs_glibc (fun q hm => by have := hq q hm; omega) n
  rw [pairs_test_main_eq (by omega), hsc, ok_bind]
  have hF : FileAt dbg params univ lists (mapped P a (save_index offs seqs)) a :=
    ⟨hg, _, _, _, hb, hsz, loaded_memOf _ _ _, (readable_memOf _ _ _).mono hP⟩
  obtain ⟨idx, h⟩ := hF.indexed
  obtain ⟨idx', h1, -, h2⟩ := mapped_behind hg hb hsz P a
  have hidx : idx' = idx := Except.ok.inj (h1.symm.trans h.map)
  subst hidx
  generalize keptLists params lists = ks at *
  generalize save_index offs seqs = F at *
  unfold run_test_union
  rw [h.map]
  simp only [ok_bind, h.univ]
  replace hq : ∀ q ∈ qs.take n, q.1 < ks.length ∧ q.2 < ks.length :=
    fun q hm => hq q (List.mem_of_mem_take hm)
  generalize qs.take n = qs' at *
  have main := forEach_exact
    (fun _ (s : Bool × Bufs × UScratch) => s.1 = true ∧ s.2.1.Len univ ∧ s.2.2.Ok)
    (fun q => (∀ xs, ks[q.1]? = some xs ∨ ks[q.2]? = some xs → HasRoom xs univ) ∧ CanUnite P ks univ q) qs' []
    (true, Bufs.init univ, x) ⟨rfl, Bufs.init_len univ, hx⟩
    (body := check_pair dbg' (mapped P a F) idx' merge_all
      (fun l r x out => pairwise_union dbg' (mapped P a F) l r x out 0)) (by
      rintro pre q ⟨g, b, t⟩ hqm ⟨hg, hb, ht⟩
      simp only at hg hb ht
      subst hg
      obtain ⟨hq1, hq2⟩ := hq q hqm
      have e1 : ks[q.1]? = some ks[q.1] := List.getElem?_eq_getElem hq1
      have e2 : ks[q.2]? = some ks[q.2] := List.getElem?_eq_getElem hq2
      obtain ⟨vx, g1⟩ := h2 _ _ e1
      obtain ⟨vy, g2⟩ := h2 _ _ e2
      obtain ⟨l, b1, hl, lx, sl, el⟩ := g1 dbg'
      obtain ⟨r, b2, hr, ly, sr, er⟩ := g2 dbg'
      have hZ := enumerates_uni vx vy
      have ho := hb.1
      have k : (CanUnite P ks univ q → ∃ s' o', pairwise_union dbg' (mapped P a F) l r t b.out 0
            = .ok ((uni ks[q.1] ks[q.2]).length, s', o') ∧ s'.Ok ∧
            Wrote b.out 0 (uni ks[q.1] ks[q.2]) 23 o') ∧
          (¬ CanUnite P ks univ q → pairwise_union dbg' (mapped P a F) l r t b.out 0 = .error .ub) := by
        by_cases hij : q.1 = q.2
        · have hself : ks[q.1] = ks[q.2] :=
            Option.some.inj (e1.symm.trans ((congrArg (ks[·]?) hij).trans e2))
          have hlr : l = r := by
            rw [hij] at hl
            exact Except.ok.inj (hl.symm.trans hr)
          have k := C69_union_self (dbg := dbg') vx sl el t ht b.out 0 (Nat.zero_le _)
          have hc : CanUnite P ks univ q ↔ 0 + ks[q.1].length ≤ b.out.length := by
            unfold CanUnite
            rw [e1, ho, Option.getD_some, Nat.zero_add]
            exact ⟨fun h => h.elim And.right (fun h => absurd hij h.1), fun h => Or.inl ⟨hij, h⟩⟩
          have e : uni ks[q.1] ks[q.2] = ks[q.1] := by
            rw [← hself]
            exact (enumerates_uni vx vx).unique ⟨vx.2.1, fun v => by simp⟩
          rw [hc, e, ← hlr]
          exact k
        · have hap : a + startAt ks q.1 + b1.length ≤ a + startAt ks q.2 ∨
              a + startAt ks q.2 + b2.length ≤ a + startAt ks q.1 := by
            rcases Nat.lt_or_gt_of_ne hij with h | h
            · have := startAt_mono e1 h
              exact Or.inl (by omega)
            · have := startAt_mono e2 h
              exact Or.inr (by omega)
          have k := C69_union (dbg := dbg') vx vy sl sr hap el er hZ t ht b.out 0 (Nat.zero_le _)
          have hc : CanUnite P ks univ q ↔
              UnionTail ks[q.1] ks[q.2] (bytesBehind P ks q.1) (bytesBehind P ks q.2) ∧
              UnionRoom ks[q.1] ks[q.2] (uni ks[q.1] ks[q.2]) 0 b.out.length := by
            unfold CanUnite
            rw [e1, e2, ho]
            exact ⟨fun h => h.elim (fun h => absurd h.1 hij) (fun h => ⟨h.2.1, h.2.2 _ hZ⟩),
              fun h => Or.inr ⟨hij, h.1, fun Z hZ' => hZ'.unique hZ ▸ h.2⟩⟩
          rw [hc]
          exact k
      by_cases hroom : ∀ xs, ks[q.1]? = some xs ∨ ks[q.2]? = some xs → HasRoom xs univ
      · have r1 := hroom _ (.inl e1)
        have r2 := hroom _ (.inr e2)
        by_cases hcan : CanUnite P ks univ q
        · refine ⟨fun _ => ?_, fun hno => absurd ⟨hroom, hcan⟩ hno⟩
          obtain ⟨t0, o0, e0, ht0, w0⟩ := k.1 hcan
          have hlen : (uni ks[q.1] ks[q.2]).length ≤ univ := by
            have := w0.fits
            omega
          obtain ⟨b', t', e, hb', ht'⟩ := check_pair_good (dbg' := dbg') h (merge := merge_all)
            (op := fun l r x out => pairwise_union dbg' (mapped P a F) l r x out 0) e1 e2 r1 r2 hb (t := t)
            (k := 23) (Q := UScratch.Ok) (by rw [merge_all_eq]; exact hlen) (by
              intro l' r' bl br gl gr _ _ _ _
              rw [hl] at gl
              rw [hr] at gr
              cases gl
              cases gr
              rw [merge_all_eq]
              exact ⟨t0, o0, e0, ht0, w0⟩)
          exact ⟨_, e, rfl, hb', ht'⟩
        · refine ⟨fun hall => absurd hall.2 hcan, fun _ => ?_⟩
          obtain ⟨bo, bi, bj, be⟩ := hb
          obtain ⟨i', ei, wi⟩ := (C43_decode (dbg' := dbg') vx (h.get _ _ e1 dbg').choose_spec.choose_spec.2.2.stored
            b.i).1 (by rwa [bi])
          obtain ⟨j', ej, wj⟩ := (C43_decode (dbg' := dbg') vy (h.get _ _ e2 dbg').choose_spec.choose_spec.2.2.stored
            b.j).1 (by rwa [bj])
          have el' : (h.get _ _ e1 dbg').choose = l :=
            Except.ok.inj ((h.get _ _ e1 dbg').choose_spec.choose_spec.1.symm.trans hl)
          have er' : (h.get _ _ e2 dbg').choose = r :=
            Except.ok.inj ((h.get _ _ e2 dbg').choose_spec.choose_spec.1.symm.trans hr)
          rw [el'] at ei
          rw [er'] at ej
          unfold check_pair
          rw [hl]
          simp only [ok_bind]
          rw [ei]
          simp only [ok_bind]
          rw [hr]
          simp only [ok_bind]
          rw [ej]
          simp only [ok_bind]
          by_cases hw : 0 + (merge_all (i'.take ks[q.1].length) (j'.take ks[q.2].length)).length
              ≤ b.expected.length
          · obtain ⟨E, eE, -⟩ := wrs_of hw
            rw [eE]
            simp only [ok_bind]
            rw [k.2 hcan]
            rfl
          · rw [wrs_err (Nat.zero_le _) (by omega)]
            rfl
      · refine ⟨fun hall => absurd hall.1 hroom, fun _ => ?_⟩
        exact check_pair_no_room h e1 e2 (fun ⟨r1, r2⟩ => hroom (fun xs hx => by
          rcases hx with hx | hx
          · rw [e1] at hx; exact Option.some.inj hx ▸ r1
          · rw [e2] at hx; exact Option.some.inj hx ▸ r2)) hb)
  refine ⟨fun hr => ?_, fun hr => ?_⟩
  · obtain ⟨⟨g, b, t⟩, e, hg, -⟩ := main.1 hr
    simp only at hg
    subst hg
    exact ⟨_, by rw [e]; rfl, rfl⟩
  · rw [main.2 hr]
    rfl

/-! ## Examples -/

/-- universe 2, three lists: the common elements of all three (none) fit, the union has three elements -/
example : ∃ m, FileAt true { size := 0 } 2 [[4], [4, 6], [5]] m 4096 ∧
    lines_test_main true (fun n => n) insSort
      (fun _ qs => run_test_intersect_many true stdSort m 4096 qs IScratch.init)
      ["test_intersect_many", "index", String.ofList (showNat 1)] "2 0 1 0\n".toList = .ok (some (1, true)) ∧
    lines_test_main true (fun n => n) insSort
      (fun _ qs => run_test_union_many true m 4096 qs MScratch.init)
      ["test_union_many", "index", String.ofList (showNat 1)] "2 0 1 0\n".toList = .error .ub := by
  have hk : keptLists { size := 0 } [[4], [4, 6], [5]] = [[4], [4, 6], [5]] := by decide
  have hg : GoodCollection { size := 0 } 2 [[4], [4, 6], [5]] := by
    refine ⟨by decide, by decide, ?_⟩
    intro xs hx _
    simp only [List.mem_cons, List.not_mem_nil, or_false] at hx
    rcases hx with rfl | rfl | rfl
    · exact valid_of_lt (by decide) (by decide) (by decide)
    · exact valid_of_lt (by decide) (by decide) (by decide)
    · exact valid_of_lt (by decide) (by decide) (by decide)
  obtain ⟨m, h⟩ := fileAt_small (dbg := true) hg (by rw [hk]; decide) (by rw [hk]; decide) 4096
  have hl : (splitLines "2 0 1 0\n".toList).take 1 = ["2 0 1 0".toList] := by decide
  have hr : readQueryText (fun n => n) insSort "2 0 1 0".toList = [0, 1, 2] := by decide
  have k := C79_room_many (dbg' := true) (p := "p") (f := "index") (minus := fun n => n) (nsort := insSort)
    (n := 1) stdSort_ok h (by omega) "2 0 1 0\n".toList
    (by rw [hl]; intro l hl'; rw [List.mem_singleton.mp hl', hr, hk]; decide)
    (fun _ => by rw [hl]; intro l hl'; rw [List.mem_singleton.mp hl', hr]; decide)
    [] _ IScratch.init_ok _ MScratch.init_ok
  rw [hl] at k
  refine ⟨m, h, ?_, k.2.2 (fun hc => ?_)⟩
  · obtain ⟨v, e, hv⟩ := k.1.1 (by
      intro l hl' _ Z hZ
      rw [List.mem_singleton.mp hl', hr, hk] at hZ
      rw [hZ.unique (L2 := []) ⟨List.Pairwise.nil, fun v => by simp [asked]; omega⟩]
      simp)
    rw [List.map_singleton, hr] at hv
    subst hv
    exact e
  · have := hc _ (List.mem_singleton.mpr rfl) (by rw [hr]; decide) [4, 5, 6] (by
      rw [hr, hk]
      exact ⟨by decide, fun v => by simp [asked]; omega⟩)
    revert this
    decide

/-- two short lists and a universe of ten: both have room, but their union only in one order -/
example : ∃ offs seqs st,
    build_index true { size := 0 } (collection 10 [[7], [6, 8]]) = .ok (offs, seqs, st) ∧
    pairs_test_main conv_glibc
      (fun _ qs => run_test_union dbg (mapped 4096 0 (save_index offs seqs)) 0 qs UScratch.init)
      ["test_union", "index", String.ofList (showNat 1)] (pairLines [(0, 1)]) = .error .ub ∧
    pairs_test_main conv_glibc
      (fun _ qs => run_test_union dbg (mapped 4096 0 (save_index offs seqs)) 0 qs UScratch.init)
      ["test_union", "index", String.ofList (showNat 1)] (pairLines [(1, 0)]) = .ok (some (1, true)) := by
  have hk : keptLists { size := 0 } [[7], [6, 8]] = [[7], [6, 8]] := by decide
  have hg : GoodCollection { size := 0 } 10 [[7], [6, 8]] := by
    refine ⟨by decide, by decide, ?_⟩
    intro xs hx _
    simp only [List.mem_cons, List.not_mem_nil, or_false] at hx
    rcases hx with rfl | rfl
    · exact seven_valid
    · exact six_eight_valid
  obtain ⟨st, hb, -⟩ := build_index_spec (dbg := true) hg
  have hF := file_length hg hb
  have hs := small_behind (keptLists_valid hg) (by rw [hk]; rfl) (by rw [hk]; decide)
  have hpos : 0 < fileSize (keptLists { size := 0 } [[7], [6, 8]]) := by unfold fileSize; omega
  have hP : 31 ≤ (4096 - fileSize (keptLists { size := 0 } [[7], [6, 8]]) % 4096) % 4096 := by
    generalize fileSize (keptLists { size := 0 } [[7], [6, 8]]) = F at *
    omega
  have k := fun (qs : List (Nat × Nat)) hq => C79_room_union (dbg' := dbg) (p := "p") (f := "index") (n := 1)
    (qs := qs) (P := 4096) (.inr rfl) hg hb (by rw [hF]; omega) 0 (by rw [hF]; exact hP) (by omega)
    (by rw [hk]; simp) hq [] _ UScratch.init_ok
  refine ⟨_, _, st, hb, (k [(0, 1)] (by rw [hk]; decide)).2 (fun hc => ?_), ?_⟩
  · have hu := (hc (0, 1) (by simp)).2
    rw [hk] at hu
    have := (hu.resolve_left (fun h => absurd h.1 (by decide))).2.2 [6, 7, 8] six_seven_eight
    simp only [List.getElem?_cons_zero, List.getElem?_cons_succ, Option.getD_some] at this
    rw [(C69_one_block (o := 0) (cap := 10) (j := 0) seven_valid six_eight_valid (by decide)
      (by decide) (by decide) (by decide)).2 six_seven_eight] at this
    revert this
    decide
  · obtain ⟨v, e, hv⟩ := (k [(1, 0)] (by rw [hk]; decide)).1 (by
      intro q hq
      rw [List.mem_singleton.mp hq]
      have b := hs.2
      rw [hk] at b ⊢
      refine ⟨fun xs hx => ?_, Or.inr ⟨by decide, (C68_mono (b 1 (by omega)) (b 0 (by omega))).2 (C68_31 _ _).2,
        fun Z hZ => ?_⟩⟩
      · have hblk : ∀ xs : List Nat, (∀ x ∈ xs, x < 256) → xs.length ≤ 8 → HasRoom xs 10 := by
          intro xs hx hl
          refine ⟨by omega, ?_⟩
          intro i b _ _ _ h1 _
          have h0 : 256 * i + b = 0 := by
            unfold blockCard at h1
            obtain ⟨x, hm⟩ := List.exists_mem_of_length_pos h1
            rw [List.mem_filter] at hm
            have := hx x hm.1
            have := of_decide_eq_true hm.2
            omega
          rw [h0]
          have h8 : blockCard xs 0 ≤ 8 := by
            unfold blockCard
            exact Nat.le_trans (List.length_filter_le _ _) hl
          have hn : (xs.filter (fun x => decide (x < 256 * 0))).length = 0 := by
            rw [List.length_eq_zero_iff, List.filter_eq_nil_iff]
            intro x _
            simp
          rw [if_pos h8, hn]
          omega
        rcases hx with hx | hx
        · cases hx
          exact hblk _ (by decide) (by decide)
        · cases hx
          exact hblk _ (by decide) (by decide)
      · have h2 := (C69_one_block (o := 0) (cap := 10) (j := 0) (Z := [6, 7, 8]) six_eight_valid
          seven_valid (by decide) (by decide) (by decide) (by decide)).2 ⟨by decide, fun v => by simp; omega⟩
        rw [hZ.unique (L2 := [6, 7, 8]) ⟨by decide, fun v => by simp; omega⟩]
        exact h2.mpr (by decide))
    subst hv
    exact e

end Sliced
