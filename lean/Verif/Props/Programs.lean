import Verif.Props.Options
import Verif.Props.Print
import Verif.Props.TestsNextGeq
import Verif.Props.TestsSets
import Verif.Props.TestsSound
/-!
# C52: from the command line of `build` to the verdict of the test programs
-/
namespace Sliced

variable {D : Type} {cv : Conv D} {m1 : D} {denser : D → Option (Nat → Nat → Bool)}
variable {dbg dbg' : Bool} {params params' : Params} {univ a : Nat} {lists : List (List Nat)} {m : Mem}
variable {prog prog' coll idx f : String} {ws ws' : List String} {ps ps' : List (String × String)}
variable {read : String → Res (List Nat)} {print : Stats → Res Unit}

/-- Two sets of parameters that keep the same lists of a collection make the same file. -/
theorem FileAt.congr (h : FileAt dbg params univ lists m a)
    (hk : ∀ xs ∈ lists, Kept params xs ↔ Kept params' xs) : FileAt dbg params' univ lists m a := by
  obtain ⟨hg, offs, seqs, st, hb, h1, h2, h3⟩ := h
  have hg' : GoodCollection params' univ lists :=
    ⟨hg.1, hg.2.1, fun xs hx hx' => hg.2.2 xs hx ((hk xs hx).mpr hx')⟩
  have hkept : keptLists params' lists = keptLists params lists :=
    List.filter_congr (fun xs hx => by rw [decide_eq_decide]; exact (hk xs hx).symm)
  obtain ⟨st1, e1, -⟩ := build_index_spec (dbg := dbg) hg
  obtain ⟨st2, e2, -⟩ := build_index_spec (dbg := dbg) hg'
  rw [hb] at e1
  simp only [Except.ok.injEq, Prod.mk.injEq] at e1
  rw [hkept, ← e1.1, ← e1.2.1] at e2
  exact ⟨hg', offs, seqs, st2, e2, h1, h2, h3⟩

/-- the parameters that options stand for -/
def paramsOf (denser : D → Option (Nat → Nat → Bool)) (o : Opts D) : Params :=
  { denser := denser o.density, size := o.size }

/-- C52: what `build` does on a collection.  If printing the statistics succeeds, it writes the saved
index to the file of the last `--out`, or nothing without such an option; the exit code is 0. -/
theorem C52_build (hw : Reads ["--density", "--size", "--out"] ws ps) (hc : Converts cv ps)
    (hr : read coll = .ok (collection univ lists)) :
    ∃ o, SetBy cv ps ⟨m1, 0, none⟩ o ∧ (GoodCollection (paramsOf denser o) univ lists →
      ∃ offs seqs st, build_index dbg (paramsOf denser o) (collection univ lists) = .ok (offs, seqs, st) ∧
        (∀ e, print st = .error e →
          build_main dbg cv m1 denser print read (prog :: coll :: ws) = .error e) ∧
        (print st = .ok () → build_main dbg cv m1 denser print read (prog :: coll :: ws)
          = .ok (0, (lastValue "--out" ps).map (fun f => (f, save_index offs seqs))))) := by
  obtain ⟨o, h1, h2, h3⟩ := C51_build_options (prog := prog) (coll := coll) hw hc ⟨m1, 0, none⟩
  refine ⟨o, h2, fun hg => ?_⟩
  obtain ⟨st, hb, -⟩ := build_index_spec (dbg := dbg) hg
  refine ⟨_, _, st, hb, ?_, ?_⟩
  · intro e he
    unfold build_main
    rw [if_neg (by simp only [List.length_cons]; omega),
      show argAt (prog :: coll :: ws) 1 = .ok (some coll) by
        unfold argAt; rw [if_pos (by simp only [List.length_cons]; omega)]; rfl, ok_bind]
    simp only [cstr, ok_bind, h1, hr]
    unfold paramsOf at hb
    rw [hb, ok_bind]
    simp only [he]
    rfl
  · intro he
    unfold build_main
    rw [if_neg (by simp only [List.length_cons]; omega),
      show argAt (prog :: coll :: ws) 1 = .ok (some coll) by
        unfold argAt; rw [if_pos (by simp only [List.length_cons]; omega)]; rfl, ok_bind]
    simp only [cstr, ok_bind, h1, hr]
    unfold paramsOf at hb
    rw [hb, ok_bind]
    simp only [he, ok_bind]
    rw [h3, Option.or_none]
    cases lastValue "--out" ps with
    | none => rfl
    | some f => rfl

/-- C52: printing is part of `build`, and it precedes the saving.  If for some `b` from 1 to 256 no slice
of the kept lists is stored as `b` blocks, then the program is undefined (C46) before it has written the
index. -/
theorem C52_build_undefined {log : Nat → Nat → Nat} {b : Nat}
    (hw : Reads ["--density", "--size", "--out"] ws ps) (hc : Converts cv ps)
    (hr : read coll = .ok (collection univ lists)) (b1 : 1 ≤ b) (b2 : b ≤ 256) :
    ∃ o, SetBy cv ps ⟨m1, 0, none⟩ o ∧ (GoodCollection (paramsOf denser o) univ lists →
      ¬ HasSliceWith (keptLists (paramsOf denser o) lists) b →
      build_main dbg cv m1 denser (fun st => do let _ ← st.print log) read (prog :: coll :: ws)
        = .error .ub) := by
  obtain ⟨o, h1, h2⟩ := C52_build (dbg := dbg) (prog := prog) (m1 := m1) (denser := denser)
    (print := fun st => do let _ ← st.print log) hw hc hr
  refine ⟨o, h1, fun hg hn => ?_⟩
  obtain ⟨offs, seqs, st, hb, h3, -⟩ := h2 hg
  refine h3 _ ?_
  rw [(C46_print hg hb).2 b b1 b2 hn]
  rfl

/-- C52: the command lines of script/build.py, `build collection d -o output`: neither `d` nor `-o` is an
option of `build`, so no density is set and nothing is written. -/
theorem C52_script {d out : String} (hd : d ∉ ["--density", "--size", "--out"])
    (ho : out ∉ ["--density", "--size", "--out"]) (hr : read coll = .ok (collection univ lists))
    (hg : GoodCollection { denser := denser m1, size := 0 } univ lists)
    (hp : ∀ st, print st = .ok ()) :
    build_main dbg cv m1 denser print read [prog, coll, d, "-o", out] = .ok (0, none) := by
  have hw : Reads ["--density", "--size", "--out"] [d, "-o", out] [] :=
    .skip hd (.skip (by decide) (.skip ho .nil))
  obtain ⟨o, h1, h2⟩ := C52_build (dbg := dbg) (cv := cv) (prog := prog) (m1 := m1) (denser := denser)
    (print := print) hw (fun p hp => by cases hp) hr
  obtain ⟨offs, seqs, st, -, -, h3⟩ := h2 (by
    unfold paramsOf
    rw [h1.density_default rfl, h1.size_default rfl]
    exact hg)
  exact h3 (hp st)

/-- what a test program with the options of the `TEST` macro does -/
theorem C52_test {α : Type} {test : String → Params → List Nat → Res α}
    (hw : Reads ["--density", "--size"] ws ps) (hc : Converts cv ps)
    (hr : read coll = .ok (collection univ lists)) :
    ∃ o, SetBy cv ps ⟨m1, 0, none⟩ o ∧
      test_main cv m1 denser read test (prog :: idx :: coll :: ws)
        = (test idx (paramsOf denser o) (collection univ lists)).map some := by
  obtain ⟨o, h1, h2⟩ := C51_test_options (prog := prog) (idx := idx) (coll := coll) hw hc ⟨m1, 0, none⟩
  refine ⟨o, h2, ?_⟩
  unfold test_main
  rw [if_neg (by simp only [List.length_cons]; omega),
    show argAt (prog :: idx :: coll :: ws) 1 = .ok (some idx) by
      unfold argAt; rw [if_pos (by simp only [List.length_cons]; omega)]; rfl,
    show argAt (prog :: idx :: coll :: ws) 2 = .ok (some coll) by
      unfold argAt; rw [if_pos (by simp only [List.length_cons]; omega)]; rfl, ok_bind]
  simp only [cstr, ok_bind, h1, hr]
  unfold paramsOf
  cases test idx { denser := denser o.density, size := o.size } (collection univ lists) with
  | error e => rfl
  | ok r => rfl

/-- Options that give the same last values set the same parameters. -/
theorem SetBy.eq {o₀ o o' : Opts D} (h : SetBy cv ps o₀ o) (h' : SetBy cv ps' o₀ o')
    (hd : lastValue "--density" ps = lastValue "--density" ps')
    (hs : lastValue "--size" ps = lastValue "--size" ps') :
    paramsOf denser o = paramsOf denser o' := by
  have h1 : o.density = o'.density := by
    cases hl : lastValue "--density" ps with
    | none => rw [h.density_default hl, h'.density_default (hd ▸ hl)]
    | some v =>
      have h1 := h.density v hl
      rw [h'.density v (hd ▸ hl)] at h1
      exact (Except.ok.inj h1).symm
  have h2 : o.size = o'.size := by
    cases hl : lastValue "--size" ps with
    | none => rw [h.size_default hl, h'.size_default (hs ▸ hl)]
    | some v =>
      have h1 := h.size v hl
      rw [h'.size v (hs ▸ hl)] at h1
      exact (Except.ok.inj h1).symm
  unfold paramsOf
  rw [h1, h2]

/-- C52, the whole way.  `build` writes a file; it is mapped, with 31 readable bytes behind it, and a
test program is run on it and the same collection, with the same options `--density` and `--size`, or
with none of them if `build` was given no `--size` (whatever its `--density`).  Then everything is
good. -/
theorem C52_pipeline {bytes : List UInt8}
    (hw : Reads ["--density", "--size", "--out"] ws ps) (hc : Converts cv ps)
    (hw' : Reads ["--density", "--size"] ws' ps') (hc' : Converts cv ps')
    (hr : read coll = .ok (collection univ lists))
    (hopts : (lastValue "--density" ps = lastValue "--density" ps' ∧
        lastValue "--size" ps = lastValue "--size" ps') ∨
      (lastValue "--size" ps = none ∧ lastValue "--size" ps' = none))
    (hg : ∀ o, SetBy cv ps ⟨m1, 0, none⟩ o → GoodCollection (paramsOf denser o) univ lists)
    (hb : build_main dbg cv m1 denser print read (prog :: coll :: ws) = .ok (0, some (f, bytes)))
    (hlen : bytes.length < 18446744073709551616) (hl : Loaded m a bytes)
    (hpad : Readable m (a + bytes.length) 31) :
    ∃ o, SetBy cv ps' ⟨m1, 0, none⟩ o ∧
      let n := (keptLists (paramsOf denser o) lists).length
      test_main cv m1 denser read (fun _ p d => test_contains dbg' m a p d)
        (prog' :: f :: coll :: ws') = .ok (some (n, true)) ∧
      test_main cv m1 denser read (fun _ p d => test_select dbg' m a p d)
        (prog' :: f :: coll :: ws') = .ok (some (n, true)) ∧
      test_main cv m1 denser read (fun _ p d => test_enumerator dbg' m a p d)
        (prog' :: f :: coll :: ws') = .ok (some (n, true)) ∧
      ((∀ xs ∈ keptLists (paramsOf denser o) lists, HasRoom xs univ) →
        test_main cv m1 denser read (fun _ p d => test_decode dbg' m a p d)
          (prog' :: f :: coll :: ws') = .ok (some (n, true))) := by
  obtain ⟨o, h1, h2⟩ := C52_build (dbg := dbg) (prog := prog) (m1 := m1) (denser := denser)
    (print := print) hw hc hr
  obtain ⟨offs, seqs, st, h3, h4, h5⟩ := h2 (hg o h1)
  have hbytes : bytes = save_index offs seqs := by
    cases hp : print st with
    | error e => rw [h4 e hp] at hb; cases hb
    | ok u =>
      rw [h5 hp] at hb
      cases hl : lastValue "--out" ps with
      | none => rw [hl] at hb; simp at hb
      | some g => rw [hl] at hb; simp at hb; exact hb.2.symm
  have hfile : FileAt dbg (paramsOf denser o) univ lists m a :=
    ⟨hg o h1, offs, seqs, st, h3, hbytes ▸ hlen, hbytes ▸ hl, hbytes ▸ hpad⟩
  have htest := fun (test : String → Params → List Nat → Res (Nat × Bool)) => C52_test (test := test)
    (prog := prog') (idx := f) (m1 := m1) (denser := denser) hw' hc' hr
  obtain ⟨o', g1, -⟩ := htest (fun _ p d => test_contains dbg' m a p d)
  have hsame : ∀ o'', SetBy cv ps' ⟨m1, 0, none⟩ o'' → paramsOf denser o'' = paramsOf denser o' :=
    fun o'' h => h.eq g1 rfl rfl
  have hfile' : FileAt dbg (paramsOf denser o') univ lists m a := by
    refine hfile.congr (fun xs _ => ?_)
    rcases hopts with ⟨e1, e2⟩ | ⟨e1, e2⟩
    · rw [h1.eq g1 e1 e2]
    · have z1 : (paramsOf denser o).size = 0 := h1.size_default e1
      have z2 : (paramsOf denser o').size = 0 := g1.size_default e2
      by_cases hne : xs = []
      · subst hne
        exact ⟨fun h => absurd rfl h.1, fun h => absurd rfl h.1⟩
      · have : 0 < xs.length := List.length_pos_iff.mpr hne
        exact ⟨fun _ => ⟨hne, Or.inr (by omega)⟩, fun _ => ⟨hne, Or.inr (by omega)⟩⟩
  refine ⟨o', g1, ?_, ?_, ?_, ?_⟩
  · obtain ⟨o'', k1, k2⟩ := htest (fun _ p d => test_contains dbg' m a p d)
    rw [k2, hsame o'' k1, C49_contains hfile']
    rfl
  · obtain ⟨o'', k1, k2⟩ := htest (fun _ p d => test_select dbg' m a p d)
    rw [k2, hsame o'' k1, C49_select hfile']
    rfl
  · obtain ⟨o'', k1, k2⟩ := htest (fun _ p d => test_enumerator dbg' m a p d)
    rw [k2, hsame o'' k1, C49_enumerator hfile']
    rfl
  · intro hroom
    obtain ⟨o'', k1, k2⟩ := htest (fun _ p d => test_decode dbg' m a p d)
    rw [k2, hsame o'' k1, (C49_decode hfile').1 hroom]
    rfl

/-! ### The README -/

/-- `double` values for the sample: "0.01" is the density 1 (per cent), the default is 0 -/
def sampleConv : Conv Nat where
  stod s := if s = "0.01" then .ok 1 else .error .exc
  atoi _ := .ok 0

def sampleDenser (d : Nat) : Option (Nat → Nat → Bool) :=
  if d = 0 then none else some (fun n u => decide (u < 100 * n))

/-- The commands of the README: `build c --density 0.01 --out f` and then `test_decode f c 0.01`.  The
word `0.01` is no option of the test, and the default size threshold makes the density irrelevant. -/
example : ∃ bytes m,
    build_main true sampleConv 0 sampleDenser (fun _ => .ok ())
      (fun _ => .ok (collection 80000 sampleColl)) ["build", "c", "--density", "0.01", "--out", "f"]
      = .ok (0, some ("f", bytes)) ∧
    Loaded m 4096 bytes ∧ Readable m (4096 + bytes.length) 31 ∧
    test_main sampleConv 0 sampleDenser (fun _ => .ok (collection 80000 sampleColl))
      (fun _ p d => test_decode false m 4096 p d) ["test_decode", "f", "c", "0.01"]
      = .ok (some (3, true)) := by
  have hgood : ∀ ps : Params, ps.size = 0 → GoodCollection ps 80000 sampleColl := by
    intro ps hp
    refine ⟨by decide, sampleColl_good.2.1, ?_⟩
    intro xs hx hk
    simp only [sampleColl, List.mem_cons, List.not_mem_nil, or_false] at hx
    rcases hx with rfl | rfl | rfl | rfl
    · exact small_valid
    · exact absurd rfl hk.1
    · exact valid_of_lt (by decide) (by decide) (by decide)
    · exact small_valid
  have hw : Reads ["--density", "--size", "--out"] ["--density", "0.01", "--out", "f"]
      [("--density", "0.01"), ("--out", "f")] := .opt (by decide) (.opt (by decide) .nil)
  have hc : Converts sampleConv [("--density", "0.01"), ("--out", "f")] := by
    intro p hp
    simp only [List.mem_cons, List.not_mem_nil, or_false] at hp
    rcases hp with rfl | rfl
    · exact ⟨fun _ => ⟨1, rfl⟩, fun _ => ⟨0, rfl⟩⟩
    · exact ⟨fun h => absurd h (by decide), fun _ => ⟨0, rfl⟩⟩
  have hw' : Reads ["--density", "--size"] ["0.01"] [] := .skip (by decide) .nil
  obtain ⟨o, h1, h2⟩ := C52_build (dbg := true) (prog := "build") (m1 := 0) (denser := sampleDenser)
    (univ := 80000) (lists := sampleColl) (coll := "c")
    (read := fun _ => .ok (collection 80000 sampleColl)) (print := fun _ => .ok ()) hw hc rfl
  obtain ⟨offs, seqs, st, h3, -, h5⟩ := h2 (hgood _ (h1.size_default rfl))
  have hb := h5 rfl
  have hk : ∀ ps : Params, ps.size = 0 → keptLists ps sampleColl = keptLists { size := 0 } sampleColl :=
    fun ps hp => (C19_default_collection hp).trans (C19_default_collection rfl).symm
  have hz : (paramsOf sampleDenser o).size = 0 := h1.size_default rfl
  obtain ⟨m, -, offs', seqs', st', e1, e2, e3, e4⟩ := fileAt_small (dbg := true) (hgood _ hz)
    (by rw [hk _ hz]; decide) (by rw [hk _ hz]; decide) 4096
  rw [h3] at e1
  simp only [Except.ok.injEq, Prod.mk.injEq] at e1
  obtain ⟨rfl, rfl, rfl⟩ := e1
  refine ⟨save_index offs seqs, m, hb, e3, e4, ?_⟩
  obtain ⟨o', g1, g2⟩ := C52_pipeline (dbg := true) (dbg' := false) (prog' := "test_decode")
    hw hc hw' (fun p hp => by cases hp) rfl (Or.inr ⟨rfl, rfl⟩)
    (fun o h => hgood _ (h.size_default rfl)) hb e2 e3 e4
  have hz : (paramsOf sampleDenser o').size = 0 := g1.size_default rfl
  rw [hk _ hz] at g2
  rw [queryLists] at g2
  exact g2.2.2.2 (by
    intro xs hx
    exact hasRoom_spare (by
      simp only [List.mem_cons, List.not_mem_nil, or_false] at hx
      rcases hx with rfl | rfl | rfl <;> decide))

/-- the script -/
example : build_main true sampleConv 0 sampleDenser (fun _ => .ok ())
    (fun _ => .ok (collection 80000 [[3, 5, 300, 70000]])) ["./build", "c", "0.01", "-o", "c.0.01.bin"]
    = .ok (0, none) := by
  refine C52_script (by decide) (by decide) rfl ⟨by decide, by decide, ?_⟩ (fun _ => rfl)
  intro xs hx _
  rw [List.mem_singleton] at hx
  subst hx
  exact small_valid

end Sliced
