import Verif.Model.Scripts
import Verif.Props.Session
/-!
# C78: the scripts

What script/build.py leaves behind, and what the commands of script/queries.py print.
-/
namespace Sliced

variable {D : Type} {w : World D} {d : Disk}

/-! ## script/build.py -/

theorem runBuild_none {build : Disk → List String → Res (Nat × Option (String × List UInt8))}
    {argv : List String} (h : ∀ d code file, build d argv = .ok (code, file) → code = 0 ∧ file = none)
    (s : Disk × List (Res Nat)) :
    runBuild build argv s = (s.1, s.2 ++ [(build s.1 argv).map Prod.fst]) := by
  unfold runBuild
  cases hb : build s.1 argv with
  | error e => rfl
  | ok r =>
    obtain ⟨code, file⟩ := r
    obtain ⟨-, hf⟩ := h _ _ _ hb
    subst hf
    rfl

/-- a command of build.py, on any file: if it ends at all, it has written nothing -/
theorem script_build {dbg : Bool} {cv : Conv D} {m1 : D} {denser : D → Option (Nat → Nat → Bool)}
    {print : Stats → Res Unit} {read : String → Res (List Nat)} {prog coll dens out : String}
    (hd : dens ∉ ["--density", "--size", "--out"]) (ho : out ∉ ["--density", "--size", "--out"])
    {code : Nat} {file : Option (String × List UInt8)}
    (h : build_main dbg cv m1 denser print read [prog, coll, dens, "-o", out] = .ok (code, file)) :
    code = 0 ∧ file = none := by
  have hw : Reads ["--density", "--size", "--out"] [dens, "-o", out] [] :=
    .skip hd (.skip (by decide) (.skip ho .nil))
  obtain ⟨o, h1, -, h3⟩ := C51_build_options (cv := cv) (prog := prog) (coll := coll) hw
    (fun p hp => by cases hp) ⟨m1, 0, none⟩
  have hout : o.out = none := h3
  unfold build_main at h
  rw [if_neg (by simp only [List.length_cons]; omega),
    show argAt [prog, coll, dens, "-o", out] 1 = .ok (some coll) by
      unfold argAt; rw [if_pos (by simp only [List.length_cons]; omega)]; rfl, ok_bind] at h
  simp only [cstr, ok_bind, h1] at h
  cases hr : read coll with
  | error e => rw [hr] at h; cases h
  | ok data =>
    rw [hr, ok_bind] at h
    cases hb : build_index dbg { denser := denser o.density, size := o.size } data with
    | error e => rw [hb] at h; cases h
    | ok r =>
      obtain ⟨offs, seqs, st⟩ := r
      rw [hb, ok_bind] at h
      simp only at h
      cases hp : print st with
      | error e => rw [hp] at h; cases h
      | ok u =>
        rw [hp, ok_bind, hout] at h
        cases h
        exact ⟨rfl, rfl⟩

theorem bin_not_option (out ext : String) {c : Char} (he : ext.toList.getLast? = some c)
    (hc : c ≠ 'y' ∧ c ≠ 'e' ∧ c ≠ 't') : out ++ ext ∉ ["--density", "--size", "--out"] := by
  intro h
  have key : ∀ k : String, out ++ ext = k → k.toList.getLast? = some c := by
    intro k hk
    rw [← hk, String.toList_append, List.getLast?_append, he]
    rfl
  simp only [List.mem_cons, List.not_mem_nil, or_false] at h
  rcases h with h | h | h
  · have := key _ h
    rw [show "--density".toList.getLast? = some 'y' by decide] at this
    exact hc.1 (Option.some.inj this).symm
  · have := key _ h
    rw [show "--size".toList.getLast? = some 'e' by decide] at this
    exact hc.2.1 (Option.some.inj this).symm
  · have := key _ h
    rw [show "--out".toList.getLast? = some 't' by decide] at this
    exact hc.2.2 (Option.some.inj this).symm

/-- `build` as the script runs it -/
def World.build (w : World D) (d : Disk) (argv : List String) : Res (Nat × Option (String × List UInt8)) :=
  build_main w.dbg w.cv w.minus_one w.denser w.print d.words argv

/-- C78: whatever the files are called and contain, script/build.py changes none of them: `-o` is no option of
`build` (C51).  Each of its three commands ends as `build` with no options but for what follows the name of the
collection. -/
theorem C78_build (input output : String) (d : Disk) :
    build_py w.build input output d = (d, [
      (w.build d ["./build", input, "0.01", "-o", output ++ ".0.01.bin"]).map Prod.fst,
      (w.build d ["./build", input, "0.001", "-o", output ++ ".0.001.bin"]).map Prod.fst,
      (w.build d ["./build", input, "0.0001", "-o", output ++ ".0.0001.bin"]).map Prod.fst]) := by
  have key : ∀ dens ext, dens ∉ ["--density", "--size", "--out"] →
      (output ++ ext) ∉ ["--density", "--size", "--out"] → ∀ s : Disk × List (Res Nat),
      runBuild w.build ["./build", input, dens, "-o", output ++ ext] s = (s.1,
        s.2 ++ [(w.build s.1 ["./build", input, dens, "-o", output ++ ext]).map Prod.fst]) :=
    fun dens ext h1 h2 s => runBuild_none (fun d code file h => script_build h1 h2 h) s
  unfold build_py
  simp only
  rw [key "0.01" ".0.01.bin" (by decide) (bin_not_option _ _ (c := 'n') (by decide) (by decide)),
    key "0.001" ".0.001.bin" (by decide) (bin_not_option _ _ (c := 'n') (by decide) (by decide)),
    key "0.0001" ".0.0001.bin" (by decide) (bin_not_option _ _ (c := 'n') (by decide) (by decide))]
  rfl

/-- C78: on a good collection, with the statistics printed, the three commands end with exit code 0 - and there
is no index. -/
theorem C78_build_good {univ : Nat} {lists : List (List Nat)} {input output : String}
    (hr : d.words input = .ok (collection univ lists))
    (hg : GoodCollection { denser := w.denser w.minus_one, size := 0 } univ lists)
    (hp : ∀ st, w.print st = .ok ()) :
    build_py w.build input output d = (d, [.ok 0, .ok 0, .ok 0]) := by
  rw [C78_build]
  have key : ∀ dens ext, dens ∉ ["--density", "--size", "--out"] →
      (output ++ ext) ∉ ["--density", "--size", "--out"] →
      (w.build d ["./build", input, dens, "-o", output ++ ext]).map Prod.fst = .ok 0 := by
    intro dens ext h1 h2
    unfold World.build
    rw [C52_script h1 h2 hr hg hp]
    rfl
  rw [key "0.01" ".0.01.bin" (by decide) (bin_not_option _ _ (c := 'n') (by decide) (by decide)),
    key "0.001" ".0.001.bin" (by decide) (bin_not_option _ _ (c := 'n') (by decide) (by decide)),
    key "0.0001" ".0.0001.bin" (by decide) (bin_not_option _ _ (c := 'n') (by decide) (by decide))]

/-! ## script/queries.py -/

/-- what a command prints -/
inductive Output
  | decoded (r : Option (Nat × Nat))
  | shown (e : Exit)
  deriving DecidableEq

/-- a command of the shell: `none` if its standard input is a file that does not exist (then the shell does not
run it) -/
def World.cmd (w : World D) (d : Disk) (argv : List String) (stdin : Option String) : Option (Res Output) :=
  let run (cs : List Char) : Res Output :=
    if argv.head? = some "./decode" then
      Output.decoded <$> index_main (w.mapFile d (tool_decode w.dbg)) argv
    else if argv.head? = some "./intersect" then
      Output.shown <$> pairs_main w.conv
        (fun f qs => w.mapFile d (fun m a => perf_intersection w.dbg w.tab m a qs w.scratch) f) argv cs
    else if argv.head? = some "./union" then
      Output.shown <$> pairs_main w.conv
        (fun f qs => w.mapFile d (fun m a => perf_union w.dbg m a qs UScratch.init) f) argv cs
    else if argv.head? = some "./select" then
      Output.shown <$> numbers_main w.conv
        (fun f k read => w.mapFile d (fun m a => perf_select w.dbg m a k read) f) argv cs
    else if argv.head? = some "./next_geq" then
      Output.shown <$> numbers_main w.conv
        (fun f k read => w.mapFile d (fun m a => perf_next_geq w.dbg m a k read) f) argv cs
    else .error .exc
  match stdin with
  | none => some (run [])
  | some file => (d file).map (fun bytes => run (textOf bytes))

/-- the query logs that script/queries.py expects, made with the tools: the file names are those of the script,
`num` is the word of the number of sequences -/
def World.logs (w : World D) (d : Disk) (idx path num : String) : Res Disk := do
  let pairs ← gen_pairwise_main w.conv w.rng ["./gen_random_pairwise_queries", "1000", num]
  let ranks ← gen_numbers_main w.conv
    (fun f k => w.mapFile d (fun m a => gen_select_queries w.dbg m a k w.rng) f)
    ["./gen_random_select_queries", idx, "1000"]
  let bounds ← gen_numbers_main w.conv
    (fun f k => w.mapFile d (fun m a => gen_next_geq_queries w.dbg m a k w.rng) f)
    ["./gen_random_next_geq_queries", idx, "1000"]
  return ((d.write (path ++ "/pairwise_queries.1k") (textBytes (pairs.getD []))).write
    (path ++ "/select_queries.1k") (textBytes (ranks.getD []))).write
    (path ++ "/next_geq_queries.1k") (textBytes (bounds.getD []))

theorem append_ne (p : String) {a b : String} (h : a ≠ b) : p ++ a ≠ p ++ b := by
  intro e
  have : (p ++ a).toList = (p ++ b).toList := by rw [e]
  rw [String.toList_append, String.toList_append] at this
  exact h (String.toList_inj.mp (List.append_cancel_left this))

theorem numbers_main_congr {conv : Bool → Nat → Res Nat}
    {perf perf' : String → Nat → (Nat → Res (List Nat)) → Res Nat} {p f : String} {rest : List String}
    {cs : List Char} (h : ∀ k r, perf f k r = perf' f k r) :
    numbers_main conv perf (p :: f :: rest) cs = numbers_main conv perf' (p :: f :: rest) cs := by
  unfold numbers_main
  cases rest with
  | nil => rfl
  | cons n rest => simp only [h]

theorem gen_numbers_main_congr {conv : Bool → Nat → Res Nat} {gen gen' : String → Nat → Res (List Nat)}
    {p p' f : String} {rest : List String} (h : ∀ k, gen f k = gen' f k) :
    gen_numbers_main conv gen (p :: f :: rest) = gen_numbers_main conv gen' (p' :: f :: rest) := by
  unfold gen_numbers_main
  cases rest with
  | nil => rfl
  | cons n rest => simp only [h]

theorem tool_union_pairs {dbg : Bool} {m : Mem} {a : Nat} {qs : List (Nat × Nat)}
    (hn : qs.length < 4294967296) {x : UScratch} :
    tool_union dbg m a qs.length (pairTokens qs) x = perf_union dbg m a qs x := by
  unfold tool_union perf_union
  rw [limit_pairs hn, List.take_length, ok_bind]

theorem mapFile_eq {α : Type} {k : Mem → Nat → Res α} {file : String} {bytes : List UInt8}
    (h : d file = some bytes) : w.mapFile d k file = k (mapped w.page w.addr bytes) w.addr := by
  unfold World.mapFile Disk.read
  rw [h]
  rfl

theorem mapFile_missing {α : Type} {k : Mem → Nat → Res α} {file : String} (h : d file = none) :
    w.mapFile d k file = .error .exc := by
  unfold World.mapFile Disk.read
  rw [h]
  rfl

variable {dbg : Bool} {params : Params} {univ : Nat} {lists : List (List Nat)} {offs : List Nat}
  {seqs : List UInt8} {st : Stats} {idx path : String}

/-- C78: script/queries.py on an index file with query logs made by the tools.  Each command is run three times
and prints the same each time: `decode` the numbers of sequences and of integers; `intersect` and `union` 11
times the sizes of the results if each query can be answered within the buffer (C69), and otherwise the command
is undefined; `select` 4 times the sum of the elements at the ranks drawn; `next_geq` 4 times the sum of the
elements drawn. -/
theorem C78_queries (hw : w.Ok univ) (hg : GoodCollection params univ lists)
    (hb : build_index dbg params (collection univ lists) = .ok (offs, seqs, st))
    (hsz : fileSize (keptLists params lists) < 18446744073709551616)
    (hP : 31 ≤ (w.page - fileSize (keptLists params lists) % w.page) % w.page)
    (h1 : 1 ≤ (keptLists params lists).length) (hnum : (keptLists params lists).length < 2147483648)
    (hroom : ∀ xs ∈ keptLists params lists, HasRoom xs univ)
    (hsmall : ∀ xs ∈ keptLists params lists, ∀ x ∈ xs, x < 2147483648)
    (hidx : d idx = some (save_index offs seqs))
    (hname : idx ∉ [path ++ "/pairwise_queries.1k", path ++ "/select_queries.1k",
      path ++ "/next_geq_queries.1k"]) :
    let ks := keptLists params lists
    ∃ (d' : Disk) (qs : List (Nat × Nat)) (rs vs : List Nat) (inter union : Res Output),
      w.logs d idx path (String.ofList (showNat ks.length)) = .ok d' ∧
      qs.length = 1000 ∧ (∀ q ∈ qs, q.1 < ks.length ∧ q.2 < ks.length) ∧
      rs.length = ks.length * 1000 ∧ vs.length = ks.length * 1000 ∧
      (∀ i xs, ks[i]? = some xs → ∀ j, j < 1000 → ∃ r, r < xs.length ∧ rs[i * 1000 + j]? = some r) ∧
      (∀ i xs, ks[i]? = some xs → ∀ j, j < 1000 → ∃ x ∈ xs, vs[i * 1000 + j]? = some x) ∧
      ((∀ q ∈ qs, CanIntersect w.page ks univ q) → inter
        = .ok (.shown (.total (11 * (qs.map (commonSize ks)).sum % 18446744073709551616)))) ∧
      (¬ (∀ q ∈ qs, CanIntersect w.page ks univ q) → inter = .error .ub) ∧
      ((∀ q ∈ qs, CanUnite w.page ks univ q) → union
        = .ok (.shown (.total (11 * (qs.map (eitherSize ks)).sum % 18446744073709551616)))) ∧
      (¬ (∀ q ∈ qs, CanUnite w.page ks univ q) → union = .error .ub) ∧
      queries_py (w.cmd d') idx path
        = List.replicate 3 (some (.ok (.decoded (some (ks.length,
            (ks.map List.length).sum % 18446744073709551616)))))
          ++ List.replicate 3 (some inter) ++ List.replicate 3 (some union)
          ++ List.replicate 3 (some (.ok (.shown (.total (4 * sumTo ks.length (fun i => sumTo 1000 (fun j =>
            (ks[i]?.getD [])[rs[i * 1000 + j]?.getD 0]?.getD 0)) % 18446744073709551616)))))
          ++ List.replicate 3 (some (.ok (.shown (.total (4 * vs.sum % 18446744073709551616))))) := by
  intro ks
  have hfl := file_length hg hb
  have hsz' : (save_index offs seqs).length < 18446744073709551616 := by rw [hfl]; exact hsz
  have hload : Loaded (mapped w.page w.addr (save_index offs seqs)) w.addr (save_index offs seqs) :=
    loaded_memOf _ _ _
  have hread : Readable (mapped w.page w.addr (save_index offs seqs))
      (w.addr + (save_index offs seqs).length) 31 := by
    intro i hi
    exact readable_memOf w.addr (save_index offs seqs) _ i (by rw [hfl]; omega)
  have hfile : FileAt dbg params univ lists (mapped w.page w.addr (save_index offs seqs)) w.addr :=
    ⟨hg, offs, seqs, st, hb, hsz', hload, hread⟩
  have hv := keptLists_valid hg
  have h1000 : atoi w.conv (showNat 1000) = .ok 1000 := by
    have := conv_atoi (w := w) hw.conv (k := 1000) (by omega)
    rwa [toList_show] at this
  obtain ⟨qs, hlen, hq, hqg, hqr⟩ := C77_queries (n := 1000) hw h1 hnum (by omega)
  obtain ⟨rs, hrg, hrl, hrm, t, hr1, ht, hr2⟩ := C64_select_queries (dbg' := w.dbg) (p := "./select") (f := idx) (k := 1000)
    hw.rng hfile (by omega) (by omega) (by omega) h1000
  obtain ⟨vs, hvg, hvl, hvm, hv1, hv2, -⟩ := C64_next_geq_queries (dbg' := w.dbg) (p := "./next_geq") (f := idx)
    (k := 1000) hw.rng hfile (by omega) (by omega) (by omega) hroom h1000
  have hpairs := C69_tool_intersect (dbg' := w.dbg) hw.tab hg hb hsz' w.page w.addr
    (n := qs.length) (qs := qs) (by omega) hq w.scratch hw.scratch
  have hunion := C69_tool_union (dbg' := w.dbg) hg hb hsz' w.page w.addr
    (n := qs.length) (qs := qs) (by omega) hq UScratch.init UScratch.init_ok
  rw [tool_intersect_pairs (by omega), List.take_length] at hpairs
  rw [tool_union_pairs (by omega), List.take_length] at hunion
  have hdec := (C44_decode (dbg' := w.dbg) hfile).1 hroom
  have w1000 : "1000" = String.ofList (showNat 1000) := word_1000.symm
  have hgp : gen_pairwise_main w.conv w.rng ["./gen_random_pairwise_queries", "1000",
      String.ofList (showNat ks.length)] = .ok (some (pairLines qs)) := by
    rw [w1000]
    exact hqg _
  have hgr : gen_numbers_main w.conv
      (fun f k => w.mapFile d (fun m a => gen_select_queries w.dbg m a k w.rng) f)
      ["./gen_random_select_queries", idx, "1000"] = .ok (some (lines rs)) := by
    rw [w1000, ← hrg]
    refine gen_numbers_main_congr (fun k => ?_)
    exact mapFile_eq hidx
  have hgv : gen_numbers_main w.conv
      (fun f k => w.mapFile d (fun m a => gen_next_geq_queries w.dbg m a k w.rng) f)
      ["./gen_random_next_geq_queries", idx, "1000"] = .ok (some (lines vs)) := by
    rw [w1000, ← hvg]
    refine gen_numbers_main_congr (fun k => ?_)
    exact mapFile_eq hidx
  -- the numbers are the same for either conversion
  have hlen' : ∀ xs ∈ ks, xs.length ≤ 2147483648 := fun xs hx =>
    sorted_length_le' (hv xs hx).2.1 (hsmall xs hx)
  have hvs : ∀ q ∈ vs, q < 2147483648 := by
    refine blocks_mem hvl (fun i hi j hj => ?_)
    obtain ⟨x, hx, hq⟩ := hvm i _ (List.getElem?_eq_getElem hi) j hj
    exact ⟨x, hq, hsmall _ (List.getElem_mem hi) x hx⟩
  have hrr := hr2 hlen'
  have hvv := hv2 hvs
  have hrc : numbers_main w.conv (fun _ => perf_select w.dbg (mapped w.page w.addr (save_index offs seqs)) w.addr)
      ["./select", idx, "1000"] (lines rs) = .ok (.total t) := by
    rw [w1000]
    rcases hw.conv with h | h <;> rw [h] <;> assumption
  have hvc : numbers_main w.conv (fun _ => perf_next_geq w.dbg (mapped w.page w.addr (save_index offs seqs)) w.addr)
      ["./next_geq", idx, "1000"] (lines vs) = .ok (.total (4 * vs.sum % 18446744073709551616)) := by
    rw [w1000]
    rcases hw.conv with h | h <;> rw [h] <;> assumption
  refine ⟨((d.write (path ++ "/pairwise_queries.1k") (textBytes (pairLines qs))).write
    (path ++ "/select_queries.1k") (textBytes (lines rs))).write
    (path ++ "/next_geq_queries.1k") (textBytes (lines vs)), qs, rs, vs,
    (fun n => Output.shown (.total n)) <$> perf_intersection w.dbg w.tab (mapped w.page w.addr (save_index offs seqs)) w.addr qs w.scratch,
    (fun n => Output.shown (.total n)) <$> perf_union w.dbg (mapped w.page w.addr (save_index offs seqs)) w.addr qs UScratch.init,
    ?_, hlen, hq, hrl, hvl, hrm, hvm, ?_, ?_, ?_, ?_, ?_⟩
  · unfold World.logs
    rw [hgp, ok_bind, hgr, ok_bind, hgv, ok_bind]
    rfl
  · intro h
    rw [hpairs.1 h]
    rfl
  · intro h
    rw [hpairs.2 h]
    rfl
  · intro h
    rw [hunion.1 h]
    rfl
  · intro h
    rw [hunion.2 h]
    rfl
  generalize hd' : ((d.write (path ++ "/pairwise_queries.1k") (textBytes (pairLines qs))).write
    (path ++ "/select_queries.1k") (textBytes (lines rs))).write
    (path ++ "/next_geq_queries.1k") (textBytes (lines vs)) = d'
  simp only [List.mem_cons, List.not_mem_nil, or_false, not_or] at hname
  have e0 : d' idx = some (save_index offs seqs) := by
    rw [← hd']
    unfold Disk.write
    rw [if_neg hname.2.2, if_neg hname.2.1, if_neg hname.1, hidx]
  have e1 : d' (path ++ "/pairwise_queries.1k") = some (textBytes (pairLines qs)) := by
    rw [← hd']
    unfold Disk.write
    rw [if_neg (append_ne _ (by decide)), if_neg (append_ne _ (by decide)), if_pos rfl]
  have e2 : d' (path ++ "/select_queries.1k") = some (textBytes (lines rs)) := by
    rw [← hd']
    unfold Disk.write
    rw [if_neg (append_ne _ (by decide)), if_pos rfl]
  have e3 : d' (path ++ "/next_geq_queries.1k") = some (textBytes (lines vs)) := by
    rw [← hd']
    unfold Disk.write
    rw [if_pos rfl]
  have c0 : w.cmd d' ["./decode", idx] none = some (.ok (.decoded (some (ks.length,
      (ks.map List.length).sum % 18446744073709551616)))) := by
    unfold World.cmd
    simp only [List.head?_cons]
    rw [if_pos trivial]
    unfold index_main
    simp only
    rw [mapFile_eq e0, hdec]
    rfl
  have c1 : w.cmd d' ["./intersect", idx, "1000"] (some (path ++ "/pairwise_queries.1k"))
      = some ((fun n => Output.shown (.total n)) <$> perf_intersection w.dbg w.tab (mapped w.page w.addr (save_index offs seqs)) w.addr qs w.scratch) := by
    unfold World.cmd
    simp only [List.head?_cons]
    rw [e1, Option.map_some, if_neg (by decide), if_pos trivial, w1000, hqr]
    rw [mapFile_eq e0, ← comp_map]
    rfl
  have c2 : w.cmd d' ["./union", idx, "1000"] (some (path ++ "/pairwise_queries.1k"))
      = some ((fun n => Output.shown (.total n)) <$> perf_union w.dbg (mapped w.page w.addr (save_index offs seqs)) w.addr qs UScratch.init) := by
    unfold World.cmd
    simp only [List.head?_cons]
    rw [e1, Option.map_some, if_neg (by decide), if_neg (by decide), if_pos trivial, w1000, hqr]
    rw [mapFile_eq e0, ← comp_map]
    rfl
  have c3 : w.cmd d' ["./select", idx, "1000"] (some (path ++ "/select_queries.1k"))
      = some (.ok (.shown (.total t))) := by
    unfold World.cmd
    simp only [List.head?_cons]
    rw [e2, Option.map_some, if_neg (by decide), if_neg (by decide), if_neg (by decide), if_pos trivial,
      (C77_text [] rs).2, numbers_main_congr (perf' := fun _ => perf_select w.dbg
        (mapped w.page w.addr (save_index offs seqs)) w.addr) (fun k r => mapFile_eq e0), hrc]
    rfl
  have c4 : w.cmd d' ["./next_geq", idx, "1000"] (some (path ++ "/next_geq_queries.1k"))
      = some (.ok (.shown (.total (4 * vs.sum % 18446744073709551616)))) := by
    unfold World.cmd
    simp only [List.head?_cons]
    rw [e3, Option.map_some, if_neg (by decide), if_neg (by decide), if_neg (by decide), if_neg (by decide),
      if_pos trivial, (C77_text [] vs).2, numbers_main_congr (perf' := fun _ => perf_next_geq w.dbg
        (mapped w.page w.addr (save_index offs seqs)) w.addr) (fun k r => mapFile_eq e0), hvc]
    rfl
  unfold queries_py
  rw [c0, c1, c2, c3, c4, ht]

/-- C78: without the index file - and build.py does not write it - no command of queries.py prints anything:
`decode` throws; the others throw or are not even started, or have already failed reading the queries. -/
theorem C78_no_index (h : d idx = none) :
    ∀ r ∈ queries_py (w.cmd d) idx path, ∀ out, r ≠ some (.ok out) := by
  have hp : ∀ (perf : List (Nat × Nat) → Mem → Nat → Res Nat) (p n : String) (cs : List Char) (e : Exit),
      pairs_main w.conv (fun f qs => w.mapFile d (perf qs) f) [p, idx, n] cs ≠ .ok e := by
    intro perf p n cs e he
    unfold pairs_main at he
    simp only [mapFile_missing h] at he
    cases hs : stoull n.toList with
    | error e => rw [hs] at he; cases he
    | ok k =>
      rw [hs, ok_bind] at he
      cases hr : reserve 8 k with
      | error e => rw [hr] at he; cases he
      | ok u =>
        rw [hr, ok_bind] at he
        cases hq : scan_pairs w.conv (rounds k cs) cs with
        | error e => rw [hq] at he; cases he
        | ok qs => rw [hq] at he; cases he
  have hn : ∀ (perf : Nat → (Nat → Res (List Nat)) → Mem → Nat → Res Nat) (p n : String) (cs : List Char)
      (e : Exit), numbers_main w.conv (fun f k read => w.mapFile d (perf k read) f) [p, idx, n] cs ≠ .ok e := by
    intro perf p n cs e he
    unfold numbers_main at he
    simp only [mapFile_missing h] at he
    cases hs : stoull n.toList with
    | error e => rw [hs] at he; cases he
    | ok k => rw [hs] at he; cases he
  have hmap : ∀ {α β : Type} {f : α → β} {x : Res α}, (∀ a, x ≠ .ok a) → ∀ b, f <$> x ≠ .ok b := by
    intro α β f x hx b hb
    cases x with
    | error e => cases hb
    | ok a => exact hx a rfl
  have hin : ∀ {file : String} {run : List UInt8 → Res Output}, (∀ cs out, run cs ≠ .ok out) →
      ∀ out, (d file).map run ≠ some (.ok out) := by
    intro file run hrun out ho
    cases hf : d file with
    | none => rw [hf] at ho; cases ho
    | some bytes =>
      rw [hf, Option.map_some, Option.some.injEq] at ho
      exact hrun _ _ ho
  have c0 : ∀ out, w.cmd d ["./decode", idx] none ≠ some (.ok out) := by
    intro out
    unfold World.cmd
    simp only [List.head?_cons]
    rw [if_pos trivial]
    unfold index_main
    simp only
    rw [mapFile_missing h]
    intro hc
    cases hc
  have c1 : ∀ stdin out, w.cmd d ["./intersect", idx, "1000"] (some stdin) ≠ some (.ok out) := by
    intro stdin
    unfold World.cmd
    simp only [List.head?_cons]
    refine hin (fun cs => ?_)
    rw [if_neg (by decide), if_pos trivial]
    exact hmap (hp (fun qs m a => perf_intersection w.dbg w.tab m a qs w.scratch) _ _ _)
  have c2 : ∀ stdin out, w.cmd d ["./union", idx, "1000"] (some stdin) ≠ some (.ok out) := by
    intro stdin
    unfold World.cmd
    simp only [List.head?_cons]
    refine hin (fun cs => ?_)
    rw [if_neg (by decide), if_neg (by decide), if_pos trivial]
    exact hmap (hp (fun qs m a => perf_union w.dbg m a qs UScratch.init) _ _ _)
  have c3 : ∀ stdin out, w.cmd d ["./select", idx, "1000"] (some stdin) ≠ some (.ok out) := by
    intro stdin
    unfold World.cmd
    simp only [List.head?_cons]
    refine hin (fun cs => ?_)
    rw [if_neg (by decide), if_neg (by decide), if_neg (by decide), if_pos trivial]
    exact hmap (hn (fun k read m a => perf_select w.dbg m a k read) _ _ _)
  have c4 : ∀ stdin out, w.cmd d ["./next_geq", idx, "1000"] (some stdin) ≠ some (.ok out) := by
    intro stdin
    unfold World.cmd
    simp only [List.head?_cons]
    refine hin (fun cs => ?_)
    rw [if_neg (by decide), if_neg (by decide), if_neg (by decide), if_neg (by decide), if_pos trivial]
    exact hmap (hn (fun k read m a => perf_next_geq w.dbg m a k read) _ _ _)
  intro r hr
  unfold queries_py at hr
  simp only [List.mem_append, List.mem_replicate] at hr
  rcases hr with (((⟨-, rfl⟩ | ⟨-, rfl⟩) | ⟨-, rfl⟩) | ⟨-, rfl⟩) | ⟨-, rfl⟩
  · exact c0
  · exact c1 _
  · exact c2 _
  · exact c3 _
  · exact c4 _

/-- C78: with an index in which no two lists have more than `univ - 32` elements together, every command prints
its result. -/
theorem C78_answered (hw : w.Ok univ) (hg : GoodCollection params univ lists)
    (hb : build_index dbg params (collection univ lists) = .ok (offs, seqs, st))
    (hsz : fileSize (keptLists params lists) < 18446744073709551616)
    (hP : 31 ≤ (w.page - fileSize (keptLists params lists) % w.page) % w.page)
    (h1 : 1 ≤ (keptLists params lists).length) (hnum : (keptLists params lists).length < 2147483648)
    (hspare : ∀ xs ∈ keptLists params lists, ∀ ys ∈ keptLists params lists, xs.length + ys.length + 32 ≤ univ)
    (hsmall : ∀ xs ∈ keptLists params lists, ∀ x ∈ xs, x < 2147483648)
    (hidx : d idx = some (save_index offs seqs))
    (hname : idx ∉ [path ++ "/pairwise_queries.1k", path ++ "/select_queries.1k",
      path ++ "/next_geq_queries.1k"]) :
    let ks := keptLists params lists
    ∃ (d' : Disk) (qs : List (Nat × Nat)) (rs vs : List Nat),
      w.logs d idx path (String.ofList (showNat ks.length)) = .ok d' ∧
      qs.length = 1000 ∧ (∀ q ∈ qs, q.1 < ks.length ∧ q.2 < ks.length) ∧
      rs.length = ks.length * 1000 ∧ vs.length = ks.length * 1000 ∧
      (∀ i xs, ks[i]? = some xs → ∀ j, j < 1000 → ∃ r, r < xs.length ∧ rs[i * 1000 + j]? = some r) ∧
      (∀ i xs, ks[i]? = some xs → ∀ j, j < 1000 → ∃ x ∈ xs, vs[i * 1000 + j]? = some x) ∧
      queries_py (w.cmd d') idx path
        = List.replicate 3 (some (.ok (.decoded (some (ks.length,
            (ks.map List.length).sum % 18446744073709551616)))))
          ++ List.replicate 3 (some (.ok (.shown (.total
            (11 * (qs.map (commonSize ks)).sum % 18446744073709551616)))))
          ++ List.replicate 3 (some (.ok (.shown (.total
            (11 * (qs.map (eitherSize ks)).sum % 18446744073709551616)))))
          ++ List.replicate 3 (some (.ok (.shown (.total (4 * sumTo ks.length (fun i => sumTo 1000 (fun j =>
            (ks[i]?.getD [])[rs[i * 1000 + j]?.getD 0]?.getD 0)) % 18446744073709551616)))))
          ++ List.replicate 3 (some (.ok (.shown (.total (4 * vs.sum % 18446744073709551616))))) := by
  intro ks
  have hv := keptLists_valid hg
  obtain ⟨d', qs, rs, vs, inter, union, e0, e1, e2, e3, e4, e5, e6, ei, -, eu, -, e⟩ :=
    C78_queries (d := d) (path := path) hw hg hb hsz hP h1 hnum
      (fun xs hx => hasRoom_spare (by have := hspare xs hx xs hx; omega)) hsmall hidx hname
  refine ⟨d', qs, rs, vs, e0, e1, e2, e3, e4, e5, e6, ?_⟩
  have key : ∀ q ∈ qs, ∃ xs ys, ks[q.1]? = some xs ∧ ks[q.2]? = some ys ∧ xs ∈ ks ∧ ys ∈ ks ∧
      31 ≤ bytesBehind w.page ks q.1 ∧ 31 ≤ bytesBehind w.page ks q.2 := by
    intro q hq
    obtain ⟨q1, q2⟩ := e2 q hq
    exact ⟨_, _, List.getElem?_eq_getElem q1, List.getElem?_eq_getElem q2, List.getElem_mem q1,
      List.getElem_mem q2, behind_31 hP q1, behind_31 hP q2⟩
  have hi := ei (fun q hq => by
    obtain ⟨xs, ys, g1, g2, m1, m2, b1, b2⟩ := key q hq
    refine ⟨(C68_mono b1 b2).1 (C68_31 _ _).1, ?_⟩
    rw [g1, g2, Option.getD_some, Option.getD_some]
    intro Z hZ
    have hl : Z.length ≤ xs.length := nodup_subset_length (hZ.1.imp (fun h => by omega))
      (fun v hv => ((hZ.2 v).mp hv).1)
    exact ((C69_23 (hv xs m1) (hv ys m2)).1 hZ).1 (by have := hspare xs m1 ys m2; omega))
  have hu := eu (fun q hq => by
    obtain ⟨xs, ys, g1, g2, m1, m2, b1, b2⟩ := key q hq
    unfold CanUnite
    rw [g1, g2, Option.getD_some, Option.getD_some]
    by_cases h : q.1 = q.2
    · exact Or.inl ⟨h, by have := hspare xs m1 ys m2; omega⟩
    · refine Or.inr ⟨h, (C68_mono b1 b2).2 (C68_31 _ _).2, fun Z hZ => ?_⟩
      have hl : Z.length ≤ (xs ++ ys).length := nodup_subset_length (hZ.1.imp (fun h => by omega))
        (fun v hv => List.mem_append.mpr ((hZ.2 v).mp hv))
      rw [List.length_append] at hl
      exact (C69_23 (hv xs m1) (hv ys m2)).2 hZ (by have := hspare xs m1 ys m2; omega))
  rw [e, hi, hu]

/-- C78: the two scripts one after the other, with the index of queries.py one of those that build.py should
have written, and not there before: nothing is printed. -/
theorem C78_scripts (input output ext : String) (h : d (output ++ ext) = none) :
    ∀ r ∈ queries_py (w.cmd (build_py w.build input output d).1) (output ++ ext) path,
      ∀ out, r ≠ some (.ok out) := by
  rw [C78_build]
  exact C78_no_index h

/-! ## Examples -/

def twoLists : List (List Nat) := [[3, 5, 300], [3, 5, 300]]

theorem twoLists_good (params : Params) : GoodCollection params 1000000 twoLists := by
  have hv : Valid [3, 5, 300] := ⟨by decide, by decide, by decide⟩
  refine ⟨by decide, ?_, ?_⟩
  · intro xs hx
    simp only [twoLists, List.mem_cons, List.not_mem_nil, or_false, or_self] at hx
    subst hx
    decide
  · intro xs hx _
    simp only [twoLists, List.mem_cons, List.not_mem_nil, or_false, or_self] at hx
    subst hx
    exact hv

theorem twoLists_kept : keptLists { size := 0 } twoLists = twoLists := by decide

/-- build.py on a collection with two lists: exit code 0 three times, and no file; then queries.py prints
nothing -/
example (d : Disk) (hd : d "c" = some (fileBytes (collection 1000000 twoLists))) (hn : d "x.0.01.bin" = none) :
    build_py sampleWorld.build "c" "x" d = (d, [.ok 0, .ok 0, .ok 0]) ∧
    ∀ r ∈ queries_py (sampleWorld.cmd (build_py sampleWorld.build "c" "x" d).1) ("x" ++ ".0.01.bin") "logs",
      ∀ out, r ≠ some (.ok out) := by
  refine ⟨C78_build_good (univ := 1000000) (lists := twoLists) ?_ (twoLists_good _) (fun _ => rfl),
    C78_scripts "c" "x" ".0.01.bin" hn⟩
  unfold Disk.words Disk.read
  rw [hd]
  show Except.ok (fileWords (fileBytes (collection 1000000 twoLists))) = _
  rw [C77_words (by decide)]

/-- with the index there: 6 numbers in 2 lists, and 11 · 1000 · 3 numbers in the intersections and in the unions -/
example (d₀ : Disk) : ∃ (d' : Disk) (t₁ t₂ : Nat),
    queries_py (sampleWorld.cmd d') "x.bin" "logs"
      = List.replicate 3 (some (.ok (.decoded (some (2, 6)))))
        ++ List.replicate 3 (some (.ok (.shown (.total 33000))))
        ++ List.replicate 3 (some (.ok (.shown (.total 33000))))
        ++ List.replicate 3 (some (.ok (.shown (.total t₁))))
        ++ List.replicate 3 (some (.ok (.shown (.total t₂)))) := by
  obtain ⟨offs, seqs, st, hb, -⟩ := C18_exists (dbg := true) (twoLists_good { size := 0 })
  have hsz : 1 ≤ fileSize twoLists ∧ fileSize twoLists ≤ 5000 := by
    unfold fileSize
    have := sum_map_le (f := encodedSize) (l := twoLists) (c := 38) (fun xs hx => by
      simp only [twoLists, List.mem_cons, List.not_mem_nil, or_false, or_self] at hx
      subst hx
      exact encodedSize_le ⟨by decide, by decide, by decide⟩)
    rw [show twoLists.length = 2 from rfl] at this ⊢
    omega
  have hall : ∀ xs ∈ twoLists, xs = [3, 5, 300] := by
    intro xs hx
    simpa only [twoLists, List.mem_cons, List.not_mem_nil, or_false, or_self] using hx
  obtain ⟨d', qs, rs, vs, -, h1, h2, -, -, -, -, e⟩ := C78_answered (w := sampleWorld)
    (d := d₀.write "x.bin" (save_index offs seqs)) (idx := "x.bin") (path := "logs") sampleWorld_ok
    (twoLists_good _) hb (by rw [twoLists_kept]; omega)
    (by rw [twoLists_kept, show sampleWorld.page = 65536 from rfl]; omega)
    (by rw [twoLists_kept]; decide) (by rw [twoLists_kept]; show 2 < 2147483648; omega)
    (by
      rw [twoLists_kept]
      intro xs hx ys hy
      rw [hall xs hx, hall ys hy]
      show 3 + 3 + 32 ≤ 1000000
      omega)
    (by
      rw [twoLists_kept]
      intro xs hx
      rw [hall xs hx]
      decide)
    (if_pos rfl) (by decide)
  rw [twoLists_kept] at e h2
  have hget : ∀ i, i < 2 → twoLists[i]?.getD [] = [3, 5, 300] := by decide
  have e1 : ∀ f : Nat × Nat → Nat, (∀ q ∈ qs, f q = 3) → (qs.map f).sum = 3000 := by
    intro f hf
    have : qs.map f = List.replicate 1000 3 := by
      refine List.eq_replicate_iff.mpr ⟨by rw [List.length_map, h1], fun n hn => ?_⟩
      obtain ⟨q, hq, rfl⟩ := List.mem_map.mp hn
      exact hf q hq
    rw [this, List.sum_replicate_nat]
  rw [e1 (commonSize twoLists) (fun q hq => by
      unfold commonSize
      rw [hget _ (h2 q hq).1, hget _ (h2 q hq).2]
      decide),
    e1 (eitherSize twoLists) (fun q hq => by
      unfold eitherSize
      rw [hget _ (h2 q hq).1, hget _ (h2 q hq).2]
      decide)] at e
  exact ⟨d', _, _, e⟩

end Sliced
