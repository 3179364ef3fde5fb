import Verif.Model.Session
import Verif.Props.Programs
import Verif.Props.ExampleProgram
import Verif.Props.Text
import Verif.Props.RoomOps
import Verif.Props.ToolsRoom
/-!
# C77: the commands of the README, one after the other

`gen_clustered_data`, `build`, `decode`, `gen_random_pairwise_queries`, `intersect` and `test_decode`, each
reading the files that the ones before have written.
-/
namespace Sliced

/-! ## Files -/

theorem fileWords_cons {x : Nat} (hx : x < 4294967296) (bs : List UInt8) :
    fileWords (le32 x ++ bs) = x :: fileWords bs := by
  show fileWords (UInt8.ofNat (x % 65536) :: UInt8.ofNat (x % 65536 / 256) :: UInt8.ofNat (x / 65536)
    :: UInt8.ofNat (x / 65536 / 256) :: bs) = _
  rw [fileWords]
  congr 1
  simp only [UInt8.toNat_ofNat']
  omega

/-- C77: the words that are written to a file are the words that are read from it. -/
theorem C77_words {ws : List Nat} (h : ∀ x ∈ ws, x < 4294967296) : fileWords (fileBytes ws) = ws := by
  unfold fileBytes
  induction ws with
  | nil => rfl
  | cons x ws ih =>
    rw [List.flatMap_cons, fileWords_cons (h x List.mem_cons_self),
      ih (fun y hy => h y (List.mem_cons_of_mem _ hy))]

/-- C77: of a file whose length is no multiple of 4, the last bytes are not seen. -/
theorem C77_words_rest {ws : List Nat} (h : ∀ x ∈ ws, x < 4294967296) {bs : List UInt8}
    (hb : bs.length < 4) : fileWords (fileBytes ws ++ bs) = ws := by
  unfold fileBytes
  induction ws with
  | nil =>
    match bs, hb with
    | [], _ => rfl
    | [_], _ => rfl
    | [_, _], _ => rfl
    | [_, _, _], _ => rfl
  | cons x ws ih =>
    rw [List.flatMap_cons, List.append_assoc, fileWords_cons (h x List.mem_cons_self),
      ih (fun y hy => h y (List.mem_cons_of_mem _ hy))]

example : fileWords (fileBytes [1, 80000, 4294967295] ++ [7, 7, 7]) = [1, 80000, 4294967295] :=
  C77_words_rest (by decide) (by decide)

theorem textOf_textBytes {cs : List Char} (h : ∀ c ∈ cs, c.toNat < 256) : textOf (textBytes cs) = cs := by
  unfold textOf textBytes
  rw [List.map_map]
  conv => rhs; rw [← List.map_id cs]
  refine List.map_congr_left (fun c hc => ?_)
  have := h c hc
  simp only [Function.comp_def, UInt8.toNat_ofNat', id]
  rw [Nat.mod_eq_of_lt (by omega), Char.ofNat_toNat]

theorem showNat_ascii : ∀ (n : Nat), ∀ c ∈ showNat n, c.toNat < 128 := by
  have digit : ∀ d, d < 10 → (Char.ofNat (48 + d)).toNat < 128 := by decide
  intro n
  induction n using Nat.strongRecOn with
  | ind n ih =>
    intro c hc
    by_cases h : n < 10
    · rw [showNat_small h, List.mem_singleton] at hc
      rw [hc]
      exact digit n h
    · rw [showNat_large h, List.mem_append, List.mem_singleton] at hc
      rcases hc with hc | hc
      · exact ih (n / 10) (by omega) c hc
      · rw [hc]
        exact digit _ (by omega)

theorem pairLines_ascii (qs : List (Nat × Nat)) : ∀ c ∈ pairLines qs, c.toNat < 128 := by
  intro c hc
  unfold pairLines at hc
  rw [List.mem_flatMap] at hc
  obtain ⟨q, -, hc⟩ := hc
  simp only [List.mem_append, List.mem_singleton] at hc
  rcases hc with ((hc | hc) | hc) | hc
  · exact showNat_ascii _ c hc
  · rw [hc]; decide
  · exact showNat_ascii _ c hc
  · rw [hc]; decide

theorem lines_ascii (ns : List Nat) : ∀ c ∈ lines ns, c.toNat < 128 := by
  intro c hc
  unfold lines at hc
  rw [List.mem_flatMap] at hc
  obtain ⟨q, -, hc⟩ := hc
  simp only [List.mem_append, List.mem_singleton] at hc
  rcases hc with hc | hc
  · exact showNat_ascii _ c hc
  · rw [hc]; decide

/-- C77: what a generator prints is what a program reads whose input is the file with it. -/
theorem C77_text (qs : List (Nat × Nat)) (ns : List Nat) :
    textOf (textBytes (pairLines qs)) = pairLines qs ∧ textOf (textBytes (lines ns)) = lines ns :=
  ⟨textOf_textBytes (fun c hc => by have := pairLines_ascii qs c hc; omega),
    textOf_textBytes (fun c hc => by have := lines_ascii ns c hc; omega)⟩

/-! ## Lists as `gen_clustered_data` draws them -/

/-- a list of `gen_clustered_data` with the universe `univ`: in each slice that begins below the universe
nothing, everything, or at most 16384 numbers drawn from the slice and the number behind it -/
def Drawn (univ : Nat) (xs : List Nat) : Prop :=
  xs.Pairwise (· < ·) ∧ ∃ (code : Nat → Nat) (some_of : Nat → List Nat),
    (∀ j x, x ∈ some_of j → 65536 * j ≤ x ∧ x ≤ min (65536 * (j + 1)) univ) ∧
    (∀ j, (some_of j).length ≤ 16384) ∧ ∀ v, v ∈ xs ↔ Chosen univ code some_of 65536 v

/-- universes whose last slice and last block are long enough -/
def Roomy (univ : Nat) : Prop :=
  0 < univ ∧ univ < 4294901760 ∧ (univ % 65536 = 0 ∨ 16417 ≤ univ % 65536) ∧
    (univ % 256 = 0 ∨ 31 ≤ univ % 256)

theorem roomy_million : Roomy 1000000 := by unfold Roomy; omega

variable {univ : Nat} {xs ys Z : List Nat}

/-- a drawn list leaves 32 slots, or it has everything from the last slice on and nothing behind the
universe -/
theorem Drawn.cases (hu : Roomy univ) (h : Drawn univ xs) :
    xs.length + 32 ≤ univ ∨
    ((∀ x ∈ xs, x < univ) ∧ ∀ x, 256 * ((univ - 1) / 256) ≤ x → x < univ → x ∈ xs) := by
  obtain ⟨hs, code, some_of, hd, hl, hm⟩ := h
  obtain ⟨h0, h1, h2, h3⟩ := hu
  have hk : ∀ j, 65536 * j < univ → j < (univ - 1) / 65536 ∨ j = (univ - 1) / 65536 := by
    intro j hj; omega
  by_cases hc : code ((univ - 1) / 65536) = 1
  · refine Or.inr ⟨fun x hx => ?_, fun x ha hb => (hm x).mpr ⟨(univ - 1) / 65536, by omega, by omega,
      Or.inl ⟨hc, by omega, hb⟩⟩⟩
    obtain ⟨j, -, hj, ⟨-, -, hx⟩ | ⟨-, hj1, hx⟩⟩ := (hm x).mp hx
    · exact hx
    · have := hd _ _ hx
      rcases hk j hj with hk | hk
      · omega
      · rw [hk] at hj1; exact absurd hc hj1
  · refine Or.inl ?_
    have := nodup_subset_length (X := xs)
      (Y := List.range (65536 * ((univ - 1) / 65536) + 1) ++ some_of ((univ - 1) / 65536))
      (hs.imp (fun h => by omega)) (fun x hx => by
        rw [List.mem_append, List.mem_range]
        obtain ⟨j, -, hj, ⟨hj1, hx, -⟩ | ⟨-, hj1, hx⟩⟩ := (hm x).mp hx
        · rcases hk j hj with hk | hk
          · exact Or.inl (by omega)
          · rw [hk] at hj1; exact absurd hj1 hc
        · rcases hk j hj with hk | hk
          · have := hd _ _ hx
            exact Or.inl (by omega)
          · rw [hk] at hx; exact Or.inr hx)
    rw [List.length_append, List.length_range] at this
    have := hl ((univ - 1) / 65536)
    omega

/-- what a list without spare slots looks like in its last block -/
theorem last_block (h0 : 0 < univ) (hs : xs.Pairwise (· < ·)) (h1 : ∀ x ∈ xs, x < univ)
    (h2 : ∀ x, 256 * ((univ - 1) / 256) ≤ x → x < univ → x ∈ xs) :
    blockCard xs ((univ - 1) / 256) = univ - 256 * ((univ - 1) / 256) := by
  unfold blockCard
  have e : xs.filter (fun x => x / 256 == (univ - 1) / 256)
      = (List.range (univ - 256 * ((univ - 1) / 256))).map (256 * ((univ - 1) / 256) + ·) := by
    refine sorted_ext (hs.filter _) ?_ (fun v => ?_)
    · rw [List.pairwise_map]
      exact List.pairwise_lt_range.imp (fun h => by omega)
    · rw [List.mem_filter, List.mem_map, beq_iff_eq]
      constructor
      · rintro ⟨hv, hj⟩
        have := h1 v hv
        exact ⟨v - 256 * ((univ - 1) / 256), List.mem_range.mpr (by omega), by omega⟩
      · rintro ⟨d, hd, rfl⟩
        rw [List.mem_range] at hd
        exact ⟨h2 _ (by omega) (by omega), by omega⟩
  rw [e, List.length_map, List.length_range]

theorem block_below (h1 : ∀ x ∈ xs, x < univ) {j : Nat} (h : 1 ≤ blockCard xs j) :
    j ≤ (univ - 1) / 256 := by
  unfold blockCard at h
  obtain ⟨x, hx⟩ := List.exists_mem_of_length_pos h
  rw [List.mem_filter, beq_iff_eq] at hx
  have := h1 x hx.1
  omega

theorem under_below (hs : Z.Pairwise (· < ·)) (v : Nat) : under Z v ≤ v := by
  have := nodup_subset_length (X := Z.filter (fun x => decide (x < v))) (Y := List.range v)
    ((hs.filter _).imp (fun h => by omega)) (fun x hx => by
      rw [List.mem_filter, decide_eq_true_eq] at hx
      exact List.mem_range.mpr hx.2)
  rwa [List.length_range] at this

theorem length_below (hs : Z.Pairwise (· < ·)) {v : Nat} (h : ∀ x ∈ Z, x < v) : Z.length ≤ v := by
  have := nodup_subset_length (X := Z) (Y := List.range v) (hs.imp (fun h => by omega))
    (fun x hx => List.mem_range.mpr (h x hx))
  rwa [List.length_range] at this

/-- C77: in a universe whose last slice has at least 16417 values and whose last block has at least 31,
each list that `gen_clustered_data` can draw fits into a buffer with one slot per value of the universe, also
with what the vector code writes behind it. -/
theorem C77_room (hu : Roomy univ) (h : Drawn univ xs) : HasRoom xs univ := by
  rcases h.cases hu with hl | ⟨h1, h2⟩
  · exact hasRoom_spare hl
  · obtain ⟨h0, -, -, h3⟩ := hu
    refine ⟨length_below h.1 h1, fun i b hi hb _ hc1 hc2 => ?_⟩
    have hj := block_below h1 hc1
    have hne : 256 * i + b ≠ (univ - 1) / 256 := by
      intro e
      rw [e, last_block h0 h.1 h1 h2] at hc2
      omega
    have := under_below h.1 (256 * (256 * i + b))
    unfold under at this
    split <;> omega

/-- C77: and so does the intersection of two of them. -/
theorem C77_room_intersect (hu : Roomy univ) (hx : Drawn univ xs) (hy : Drawn univ ys) (vx : Valid xs)
    (vy : Valid ys) (hZ : Enumerates Z (fun v => v ∈ xs ∧ v ∈ ys)) : InterRoom xs ys Z 0 univ := by
  have lx : Z.length ≤ xs.length := nodup_subset_length (hZ.1.imp (fun h => by omega))
    (fun v hv => ((hZ.2 v).mp hv).1)
  have ly : Z.length ≤ ys.length := nodup_subset_length (hZ.1.imp (fun h => by omega))
    (fun v hv => ((hZ.2 v).mp hv).2)
  rcases hx.cases hu with hl | ⟨x1, x2⟩
  · exact (((C69_23 vx vy).1 hZ).1 (by omega))
  rcases hy.cases hu with hl | ⟨y1, y2⟩
  · exact (((C69_23 vx vy).1 hZ).1 (by omega))
  obtain ⟨h0, -, -, h3⟩ := hu
  have slice : ∀ {zs : List Nat} {i : Nat}, zs.Pairwise (· < ·) → (∀ x ∈ zs, x < univ) →
      (∀ x, 256 * ((univ - 1) / 256) ≤ x → x < univ → x ∈ zs) → SliceRoom zs Z i 0 univ := by
    intro zs i hs h1 h2 b hb hc1 hc2
    have hj := block_below h1 hc1
    have hne : 256 * i + b ≠ (univ - 1) / 256 := by
      intro e
      rw [e, last_block h0 hs h1 h2] at hc2
      omega
    have := under_below hZ.1 (256 * (256 * i + b))
    unfold decodeRoom
    split <;> omega
  refine ⟨by have := length_below hx.1 x1; omega, fun i hi => ⟨fun _ _ b hb hc1 hc2 => ?_,
    fun _ _ => slice hx.1 x1 x2, fun _ _ => slice hy.1 y1 y2⟩⟩
  have sA : (blockOf xs (256 * i + b)).Pairwise (· < ·) := hx.1.filter _
  have sB : (blockOf ys (256 * i + b)).Pairwise (· < ·) := hy.1.filter _
  have hu := under_below hZ.1 (256 * (256 * i + b))
  have hj := block_below x1 hc1
  by_cases e : 256 * i + b = (univ - 1) / 256
  · have e1 : (blockOf xs (256 * i + b)).length = univ - 256 * ((univ - 1) / 256) := by
      rw [e]; exact last_block h0 hx.1 x1 x2
    have e2 : (blockOf ys (256 * i + b)).length = univ - 256 * ((univ - 1) / 256) := by
      rw [e]; exact last_block h0 hy.1 y1 y2
    have hi := List.length_filter_le (fun x => decide (x ∈ blockOf ys (256 * i + b)))
      (blockOf xs (256 * i + b))
    unfold blkNeed
    rw [if_neg (by omega), if_neg (by omega)]
    unfold inter
    omega
  · have := blkNeed_le sA sB
    have hi : (inter (blockOf xs (256 * i + b)) (blockOf ys (256 * i + b))).length
        ≤ (blockOf xs (256 * i + b)).length := List.length_filter_le _ _
    have hl : (blockOf xs (256 * i + b)).length ≤ 256 := by
      have := nodup_subset_length (X := blockOf xs (256 * i + b))
        (Y := (List.range 256).map (256 * (256 * i + b) + ·)) (sA.imp (fun h => by omega)) (fun x hx => by
          unfold blockOf at hx
          rw [List.mem_filter, beq_iff_eq] at hx
          exact List.mem_map.mpr ⟨x - 256 * (256 * i + b), List.mem_range.mpr (by omega), by omega⟩)
      rwa [List.length_map, List.length_range] at this
    omega

/-- C77: the room is not there in every universe.  If the last slice has fewer than 31 values, and not exactly
8, the list of all values can be drawn, and decoding it into one slot per value writes behind the buffer. -/
theorem C77_no_room {r : Nat} (hu : univ < 4294901760) (hr : univ % 65536 = r) (h0 : 0 < r) (h31 : r < 31)
    (h8 : r ≠ 8) : Drawn univ (List.range univ) ∧ ¬ HasRoom (List.range univ) univ := by
  refine ⟨⟨List.pairwise_lt_range, fun _ => 1, fun _ => [], fun j x hx => (by cases hx), fun j => by simp,
    fun v => ?_⟩, fun h => ?_⟩
  · rw [List.mem_range]
    constructor
    · exact fun h => ⟨v / 65536, by omega, by omega, Or.inl ⟨rfl, rfl, h⟩⟩
    · rintro ⟨j, -, -, ⟨-, -, h⟩ | ⟨-, h, -⟩⟩
      · exact h
      · exact absurd rfl h
  · have hlt : ∀ x ∈ List.range univ, x < univ := fun x hx => List.mem_range.mp hx
    have hin : ∀ x, 256 * ((univ - 1) / 256) ≤ x → x < univ → x ∈ List.range univ :=
      fun x _ h => List.mem_range.mpr h
    have hb := last_block (xs := List.range univ) (by omega) List.pairwise_lt_range hlt hin
    have hj : (univ - 1) / 256 = 256 * (univ / 65536) := by omega
    have hc : sliceCard (List.range univ) (univ / 65536) = r := by
      unfold sliceCard
      have e : (List.range univ).filter (fun x => x / 65536 == univ / 65536)
          = (List.range r).map (65536 * (univ / 65536) + ·) := by
        refine sorted_ext (List.pairwise_lt_range.filter _) ?_ (fun v => ?_)
        · rw [List.pairwise_map]
          exact List.pairwise_lt_range.imp (fun h => by omega)
        · rw [List.mem_filter, List.mem_map, beq_iff_eq, List.mem_range]
          constructor
          · rintro ⟨hv, hj⟩
            exact ⟨v - 65536 * (univ / 65536), List.mem_range.mpr (by omega), by omega⟩
          · rintro ⟨d, hd, rfl⟩
            rw [List.mem_range] at hd
            exact ⟨by omega, by omega⟩
      rw [e, List.length_map, List.length_range]
    have hs : sparseSlice (List.range univ) (univ / 65536) = true := by
      unfold sparseSlice
      rw [decide_eq_true_eq, hc]
      have := sparseCost_le (xs := List.range univ) List.pairwise_lt_range (univ / 65536)
      rw [hc] at this
      omega
    have := h.2 (univ / 65536) 0 (by omega) (by omega) hs (by rw [Nat.add_zero, ← hj, hb]; omega)
      (by rw [Nat.add_zero, ← hj, hb]; omega)
    rw [Nat.add_zero, ← hj, hb] at this
    have hund : under (List.range univ) (256 * ((univ - 1) / 256)) = 256 * ((univ - 1) / 256) := by
      unfold under
      have e : (List.range univ).filter (fun x => decide (x < 256 * ((univ - 1) / 256)))
          = List.range (256 * ((univ - 1) / 256)) := by
        refine sorted_ext (List.pairwise_lt_range.filter _) List.pairwise_lt_range (fun v => ?_)
        rw [List.mem_filter, List.mem_range, List.mem_range, decide_eq_true_eq]
        omega
      rw [e, List.length_range]
    unfold under at hund
    rw [hund] at this
    split at this <;> omega

/-! ## The session -/

/-- everything that the programs do not determine: the library functions, the numbers drawn, and how files
are mapped -/
structure World (D : Type) where
  dbg : Bool
  sort : List Nat → List Nat
  code : Nat → Nat → Nat
  some_of : Nat → Nat → List Nat
  conv : Bool → Nat → Res Nat
  cv : Conv D
  minus_one : D
  denser : D → Option (Nat → Nat → Bool)
  print : Stats → Res Unit
  tab : Nat → List Nat
  scratch : List Nat
  rng : Nat → Nat → Nat → Nat
  page : Nat
  addr : Nat

/-- what is assumed of it -/
structure World.Ok {D : Type} (w : World D) (univ : Nat) : Prop where
  sort : SortNat w.sort
  draws : DrawsOk univ w.some_of
  few : ∀ i j, (w.some_of i j).length ≤ 16384
  conv : w.conv = conv_iso ∨ w.conv = conv_glibc
  tab : TabOk w.tab
  scratch : w.scratch.length = 1024
  rng : RngOk w.rng

variable {D : Type}

/-- a program that maps an index file -/
def World.mapFile {α : Type} (w : World D) (d : Disk) (k : Mem → Nat → Res α) (file : String) : Res α := do
  let bytes ← d.read file
  k (mapped w.page w.addr bytes) w.addr

/-- what the commands print: the exit code of `build`, the numbers of sequences and integers that `decode` has
seen, the total of `intersect` and the outcome of `test_decode` -/
structure Shown where
  built : Nat
  decoded : Option (Nat × Nat)
  common : Exit
  tested : Option (Nat × Bool)

/-- README.md:184, 188, 265, 279, 283, 301: the commands that generate a collection, build an index, decode it,
intersect random pairs, and test it.  `num`, `univ` and `n` are the words of the number of lists, the universe
and the number of queries.  The README has the collection in another directory for the last command. -/
def World.session (w : World D) (fuel : Nat) (num univ n : String) (d : Disk) : Res Shown := do
  -- ./gen_clustered_data 100 1000000 test_collection --binary
  let coll ← gen_clustered_main w.conv w.sort id w.code w.some_of fuel
    ["./gen_clustered_data", num, univ, "test_collection", "--binary"]
  let d := d.put coll
  -- ./build test_collection --density 0.01 --out test_collection.out
  let (built, idx) ← build_main w.dbg w.cv w.minus_one w.denser w.print d.words
    ["./build", "test_collection", "--density", "0.01", "--out", "test_collection.out"]
  let d := d.put idx
  -- ./decode test_collection.out
  let decoded ← index_main (w.mapFile d (tool_decode w.dbg)) ["./decode", "test_collection.out"]
  -- ./gen_random_pairwise_queries 1000 100 > test_pairwise_queries
  let qs ← gen_pairwise_main w.conv w.rng ["./gen_random_pairwise_queries", n, num]
  let d := d.write "test_pairwise_queries" (textBytes (qs.getD []))
  -- ./intersect test_collection.out 1000 < test_pairwise_queries
  let input ← d.read "test_pairwise_queries"
  let common ← pairs_main w.conv
    (fun f qs => w.mapFile d (fun m a => perf_intersection w.dbg w.tab m a qs w.scratch) f)
    ["./intersect", "test_collection.out", n] (textOf input)
  -- ./test_decode test_collection.out test_collection 0.01
  let tested ← test_main w.cv w.minus_one w.denser d.words
    (fun f p ws => w.mapFile d (fun m a => test_decode w.dbg m a p ws) f)
    ["./test_decode", "test_collection.out", "test_collection", "0.01"]
  return ⟨built, decoded, common, tested⟩

variable {w : World D} {num n : Nat} {lists : List (List Nat)}

/-- the lists are those drawn: list `i` has the numbers chosen for it, in order -/
def World.Draws (w : World D) (num univ : Nat) (lists : List (List Nat)) : Prop :=
  lists.length = num ∧ ∀ i xs, lists[i]? = some xs → xs.Pairwise (· < ·) ∧
    ∀ v, v ∈ xs ↔ Chosen univ (w.code i) (w.some_of i) 65536 v

theorem World.Draws.drawn (hw : w.Ok univ) (h : w.Draws num univ lists) :
    ∀ xs ∈ lists, Drawn univ xs := by
  intro xs hx
  obtain ⟨i, hi⟩ := List.getElem?_of_mem hx
  obtain ⟨h1, h2⟩ := h.2 i xs hi
  exact ⟨h1, w.code i, w.some_of i, fun j x hx => hw.draws i j x hx, fun j => hw.few i j, h2⟩

theorem World.Draws.good (hw : w.Ok univ) (hu : univ < 4294901760) (h : w.Draws num univ lists) :
    ∀ params, GoodCollection params univ lists := by
  have hle : ∀ xs ∈ lists, ∀ x ∈ xs, x ≤ univ := by
    intro xs hx x hxs
    obtain ⟨-, code, some_of, hd, -, hm⟩ := h.drawn hw xs hx
    obtain ⟨j, -, -, ⟨-, -, hv⟩ | ⟨-, -, hv⟩⟩ := (hm x).mp hxs
    · omega
    · have := hd j x hv
      omega
  have hs : ∀ xs ∈ lists, xs.Pairwise (· < ·) := fun xs hx => (h.drawn hw xs hx).1
  refine fun params => ⟨by omega, fun xs hx => ?_, fun xs hx hk => ⟨hk.1, hs xs hx, fun x hxs => ?_⟩⟩
  · have := length_below (hs xs hx) (v := univ + 1) (fun x hxs => by have := hle xs hx x hxs; omega)
    omega
  · have := hle xs hx x hxs
    omega

/-- the collection file -/
theorem collection_words {params : Params} (hg : GoodCollection params univ lists)
    (hlt : ∀ xs ∈ lists, xs ≠ [] → Valid xs) : fileWords (fileBytes (collection univ lists))
      = collection univ lists := by
  refine C77_words (fun x hx => ?_)
  unfold collection at hx
  simp only [List.mem_cons, List.mem_flatMap] at hx
  rcases hx with rfl | rfl | ⟨xs, hxs, rfl | hx⟩
  · omega
  · exact hg.1
  · have := hg.2.1 xs hxs; omega
  · have := (hlt xs hxs (List.ne_nil_of_mem hx)).2.2 x hx; omega

theorem conv_atoi (hc : w.conv = conv_iso ∨ w.conv = conv_glibc) {k : Nat} (hk : k < 2147483648) :
    atoi w.conv (String.ofList (showNat k)).toList = .ok k := by
  rw [toList_show]
  rcases hc with h | h <;> rw [h]
  · exact (C64_atoi k).1 hk
  · exact (C64_atoi k).2.2 (by omega)

/-- C77: `gen_clustered_data --binary` with the words of two numbers writes the collection of the lists drawn. -/
theorem C77_generate (hw : w.Ok univ) (hnum : num < 2147483648) (hu : univ < 2147483648)
    {prog file : String} {f : List Nat → List Nat} :
    ∃ fuel lists, w.Draws num univ lists ∧
      gen_clustered_main w.conv w.sort f w.code w.some_of fuel
        [prog, String.ofList (showNat num), String.ofList (showNat univ), file, "--binary"]
        = .ok (some (file, fileBytes (collection univ lists))) := by
  obtain ⟨lists, ⟨fuel, h1⟩, -, h3, h4⟩ := C47_clustered (params := { size := 0 }) (num := num)
    (code := w.code) hw.sort (show univ < 4294901760 by omega) hw.draws
  refine ⟨fuel, lists, ⟨h3, h4⟩, ?_⟩
  unfold gen_clustered_main
  simp only [conv_atoi hw.conv hnum, conv_atoi hw.conv hu, ok_bind, List.mem_singleton, if_true, h1]
  rfl

/-- C77: `gen_random_pairwise_queries` prints `n` pairs of numbers below `num`, and a program that reads them
(with the same `n`) is run on exactly these pairs. -/
theorem C77_queries (hw : w.Ok univ) (h1 : 1 ≤ num) (hnum : num < 2147483648) (hn : n < 2147483648) :
    ∃ qs : List (Nat × Nat), qs.length = n ∧ (∀ q ∈ qs, q.1 < num ∧ q.2 < num) ∧
      (∀ prog, gen_pairwise_main w.conv w.rng [prog, String.ofList (showNat n), String.ofList (showNat num)]
        = .ok (some (pairLines qs))) ∧
      ∀ (prog file : String) (perf : String → List (Nat × Nat) → Res Nat),
        pairs_main w.conv perf [prog, file, String.ofList (showNat n)]
          (textOf (textBytes (pairLines qs))) = Exit.total <$> perf file qs := by
  obtain ⟨hlen, hq⟩ := C48_pairwise (n := n) hw.rng h1 (by omega : num < 4294967296)
  refine ⟨gen_pairwise_queries n num w.rng, hlen, hq, fun prog => ?_, fun prog file perf => ?_⟩
  · unfold gen_pairwise_main
    simp only [conv_atoi hw.conv hn, conv_atoi hw.conv hnum, ok_bind]
    rfl
  · generalize gen_pairwise_queries n num w.rng = qs at hlen hq
    rw [(C77_text qs []).1, pairs_main_eq (by omega)]
    have hrd : rounds n (pairLines qs) = n := if_pos (by omega)
    have hsc : scan_pairs w.conv (rounds n (pairLines qs)) (pairLines qs) = .ok qs := by
      rw [hrd]
      rcases hw.conv with h | h <;> rw [h]
      · rw [(C64_pairs_iso qs n).1 (fun q hm => by
          have := hq q (List.mem_of_mem_take hm); omega), ← hlen, List.take_length]
      · rw [C64_pairs_glibc (fun q hm => by have := hq q hm; omega), ← hlen, List.take_length]
    rw [hsc, ok_bind]
    simp only [map_eq_pure_bind]

theorem test_main_congr {α : Type} {cv : Conv D} {m1 : D} {denser : D → Option (Nat → Nat → Bool)}
    {read : String → Res (List Nat)} {test test' : String → Params → List Nat → Res α} {prog f coll : String}
    {ws : List String} (h : ∀ p ds, test f p ds = test' f p ds) :
    test_main cv m1 denser read test (prog :: f :: coll :: ws)
      = test_main cv m1 denser read test' (prog :: f :: coll :: ws) := by
  unfold test_main
  rw [if_neg (by simp only [List.length_cons]; omega), if_neg (by simp only [List.length_cons]; omega),
    show argAt (prog :: f :: coll :: ws) 1 = .ok (some f) by
      unfold argAt; rw [if_pos (by simp only [List.length_cons]; omega)]; rfl, ok_bind, ok_bind]
  simp only [cstr, ok_bind, h]

theorem tool_intersect_pairs {dbg : Bool} {tab : Nat → List Nat} {m : Mem} {a : Nat} {qs : List (Nat × Nat)}
    (hn : qs.length < 4294967296) {x : List Nat} :
    tool_intersect dbg tab m a qs.length (pairTokens qs) x = perf_intersection dbg tab m a qs x := by
  unfold tool_intersect perf_intersection
  rw [limit_pairs hn, List.take_length, ok_bind]

theorem kept_all {params : Params} (h0 : params.size = 0) (hne : ∀ xs ∈ lists, xs ≠ []) :
    keptLists params lists = lists := by
  rw [C19_default_collection h0]
  exact List.filter_eq_self.mpr (fun xs hx => by
    cases xs with
    | nil => exact absurd rfl (hne _ hx)
    | cons => rfl)

theorem behind_31 {P : Nat} (hP : 31 ≤ (P - fileSize lists % P) % P) {i : Nat} (hi : i < lists.length) :
    31 ≤ bytesBehind P lists i := by
  have e : lists[i]? = some lists[i] := List.getElem?_eq_getElem hi
  have := startAt_le e
  unfold bytesBehind
  rw [e, Option.getD_some]
  unfold fileSize at hP ⊢
  omega

/-- C77: the commands of the README.  Let no list be empty, let at least 31 bytes of the last page of the index
file be unused, and let the statistics be printed.  Whatever the programs draw, in a universe with enough room
each command succeeds on what the others have left: `decode` sees all lists and all their numbers, `intersect`
has the sizes of the intersections of the pairs drawn (11 times), and `test_decode` finds everything good. -/
theorem C77_session (hw : w.Ok univ) (hu : Roomy univ) (hu' : univ < 2147483648) (h1 : 1 ≤ num)
    (hnum : num < 2147483648) (hn : n < 2147483648) (hd : ∃ v, w.cv.stod "0.01" = .ok v)
    (hp : ∀ st, w.print st = .ok ()) (d : Disk) :
    ∃ (fuel : Nat) (lists : List (List Nat)) (qs : List (Nat × Nat)), w.Draws num univ lists ∧ qs.length = n ∧ (∀ q ∈ qs, q.1 < num ∧ q.2 < num) ∧
      ((∀ xs ∈ lists, xs ≠ []) → fileSize lists < 18446744073709551616 →
        31 ≤ (w.page - fileSize lists % w.page) % w.page →
        w.session fuel (String.ofList (showNat num)) (String.ofList (showNat univ))
          (String.ofList (showNat n)) d = .ok {
            built := 0
            decoded := some (num, (lists.map List.length).sum % 18446744073709551616)
            common := .total (11 * (qs.map (commonSize lists)).sum % 18446744073709551616)
            tested := some (num, true) }) := by
  obtain ⟨fuel, lists, hdr, hgen⟩ := C77_generate (prog := "./gen_clustered_data") (file := "test_collection")
    (f := id) hw hnum hu'
  obtain ⟨qs, hlen, hq, hqg, hqr⟩ := C77_queries hw h1 hnum hn
  refine ⟨fuel, lists, qs, hdr, hlen, hq, fun hne hsz hP => ?_⟩
  have hg := hdr.good hw hu.2.1
  have hdrawn := hdr.drawn hw
  have hv : ∀ xs ∈ lists, Valid xs := fun xs hx =>
    (hg { size := 0 }).2.2 xs hx ⟨hne xs hx, Or.inr (List.length_pos_iff.mpr (hne xs hx))⟩
  have hcw : fileWords (fileBytes (collection univ lists)) = collection univ lists :=
    collection_words (hg { size := 0 }) (fun xs hx _ => hv xs hx)
  -- the disk with the collection
  have hw1 : Reads ["--density", "--size", "--out"]
      ["--density", "0.01", "--out", "test_collection.out"]
      [("--density", "0.01"), ("--out", "test_collection.out")] :=
    .opt (by decide) (.opt (by decide) .nil)
  have hc1 : Converts w.cv [("--density", "0.01"), ("--out", "test_collection.out")] := by
    intro p hp
    simp only [List.mem_cons, List.not_mem_nil, or_false] at hp
    rcases hp with rfl | rfl
    · exact ⟨fun _ => hd, fun h => absurd h (by decide)⟩
    · exact ⟨fun h => absurd h (by decide), fun h => absurd h (by decide)⟩
  have hw2 : Reads ["--density", "--size"] ["0.01"] [] := .skip (by decide) .nil
  have hc2 : Converts w.cv [] := fun p hp => by cases hp
  have hr1 : (Disk.put d (some ("test_collection", fileBytes (collection univ lists)))).words
      "test_collection" = .ok (collection univ lists) := by
    show Except.ok (fileWords (fileBytes (collection univ lists))) = _
    rw [hcw]
  obtain ⟨o, ho, hb⟩ := C52_build (dbg := w.dbg) (prog := "./build") (m1 := w.minus_one)
    (denser := w.denser) (print := w.print) hw1 hc1 hr1
  obtain ⟨offs, seqs, st, hbi, -, hbm⟩ := hb (hg _)
  have hbm := hbm (hp st)
  have hlv : lastValue "--out" [("--density", "0.01"), ("--out", "test_collection.out")]
      = some "test_collection.out" := by decide
  rw [hlv, Option.map_some] at hbm
  have hs0 : (paramsOf w.denser o).size = 0 := ho.size_default (by decide)
  have hk := kept_all hs0 hne
  have hfl := file_length (hg _) hbi
  rw [hk] at hfl
  have hsz' : (save_index offs seqs).length < 18446744073709551616 := by rw [hfl]; exact hsz
  have hload : Loaded (mapped w.page w.addr (save_index offs seqs)) w.addr (save_index offs seqs) :=
    loaded_memOf _ _ _
  have hread : Readable (mapped w.page w.addr (save_index offs seqs))
      (w.addr + (save_index offs seqs).length) 31 := by
    intro i hi
    exact readable_memOf w.addr (save_index offs seqs) _ i (by rw [hfl]; omega)
  have hfile : FileAt w.dbg (paramsOf w.denser o) univ lists
      (mapped w.page w.addr (save_index offs seqs)) w.addr :=
    ⟨hg _, offs, seqs, st, hbi, hsz', hload, hread⟩
  have hroom : ∀ xs ∈ lists, HasRoom xs univ := fun xs hx => C77_room hu (hdrawn xs hx)
  have hdec := (C44_decode (dbg' := w.dbg) hfile).1 (by rw [hk]; exact hroom)
  rw [hk, hdr.1] at hdec
  have hint := (C69_tool_intersect (dbg' := w.dbg) hw.tab (hg _) hbi hsz' w.page w.addr
    (n := qs.length) (qs := qs) (by omega) (by rw [hk, hdr.1]; exact hq) w.scratch hw.scratch).1 (by
      rw [hk]
      intro q hmem
      obtain ⟨q1, q2⟩ := hq q (List.mem_of_mem_take hmem)
      rw [← hdr.1] at q1 q2
      have e1 : lists[q.1]? = some lists[q.1] := List.getElem?_eq_getElem q1
      have e2 : lists[q.2]? = some lists[q.2] := List.getElem?_eq_getElem q2
      refine ⟨(C68_mono (behind_31 hP q1) (behind_31 hP q2)).1 (C68_31 _ _).1, fun Z hZ => ?_⟩
      rw [e1, e2, Option.getD_some, Option.getD_some] at hZ ⊢
      exact C77_room_intersect hu (hdrawn _ (List.getElem_mem q1)) (hdrawn _ (List.getElem_mem q2))
        (hv _ (List.getElem_mem q1)) (hv _ (List.getElem_mem q2)) hZ)
  rw [tool_intersect_pairs (by omega), hk, List.take_length] at hint
  -- the test
  have hr2 : ∀ q, (((Disk.put d (some ("test_collection", fileBytes (collection univ lists)))).put
      (some ("test_collection.out", save_index offs seqs))).write "test_pairwise_queries" q).words
      "test_collection" = .ok (collection univ lists) := by
    intro q
    show Except.ok (fileWords (fileBytes (collection univ lists))) = _
    rw [hcw]
  have hbm' := C52_build (dbg := w.dbg) (prog := "./build") (m1 := w.minus_one)
    (denser := w.denser) (print := w.print) hw1 hc1 (hr2 (textBytes (pairLines qs)))
  obtain ⟨o', ho', hb'⟩ := hbm'
  obtain ⟨offs', seqs', st', hbi', -, hbm'⟩ := hb' (hg _)
  have heq : paramsOf w.denser o = paramsOf w.denser o' := ho.eq ho' rfl rfl
  rw [← heq, hbi] at hbi'
  simp only [Except.ok.injEq, Prod.mk.injEq] at hbi'
  obtain ⟨rfl, rfl, rfl⟩ := hbi'
  have hbm' := hbm' (hp st)
  rw [hlv, Option.map_some] at hbm'
  obtain ⟨o2, ho2, -, -, -, ht⟩ := C52_pipeline (dbg' := w.dbg) (prog' := "./test_decode") hw1 hc1 hw2 hc2
    (hr2 (textBytes (pairLines qs))) (Or.inr ⟨by decide, by decide⟩) (fun _ _ => hg _) hbm' hsz' hload hread
  have hk2 := kept_all (params := paramsOf w.denser o2) (ho2.size_default (by decide)) hne
  rw [hk2, hdr.1] at ht
  have ht := ht hroom
  unfold World.session
  rw [hgen, ok_bind]
  simp only []
  rw [hbm, ok_bind]
  simp only [index_main]
  rw [show w.mapFile ((d.put (some ("test_collection", fileBytes (collection univ lists)))).put
      (some ("test_collection.out", save_index offs seqs))) (tool_decode w.dbg) "test_collection.out"
      = tool_decode w.dbg (mapped w.page w.addr (save_index offs seqs)) w.addr from rfl, hdec, ok_bind]
  simp only [pure_bind]
  rw [hqg, ok_bind]
  simp only [Option.getD_some]
  rw [show ∀ (d : Disk) b, (d.write "test_pairwise_queries" b).read "test_pairwise_queries" = .ok b from
    fun d b => by unfold Disk.write Disk.read; simp, ok_bind, hqr]
  rw [show ∀ q, w.mapFile (((d.put (some ("test_collection", fileBytes (collection univ lists)))).put
      (some ("test_collection.out", save_index offs seqs))).write "test_pairwise_queries" q)
      (fun m a => perf_intersection w.dbg w.tab m a qs w.scratch) "test_collection.out"
      = perf_intersection w.dbg w.tab (mapped w.page w.addr (save_index offs seqs)) w.addr qs w.scratch
      from fun q => rfl, hint]
  rw [test_main_congr (test' := fun _ p d => test_decode w.dbg
    (mapped w.page w.addr (save_index offs seqs)) w.addr p d) (fun p ds => rfl), ht]
  rfl

theorem sum_map_le {α : Type} {f : α → Nat} {c : Nat} : ∀ {l : List α}, (∀ x ∈ l, f x ≤ c) →
    (l.map f).sum ≤ l.length * c
  | [], _ => by simp
  | x :: l, h => by
    have := sum_map_le (l := l) (fun y hy => h y (List.mem_cons_of_mem _ hy))
    have := h x List.mem_cons_self
    rw [List.map_cons, List.sum_cons, List.length_cons, Nat.succ_mul]
    omega

/-- drawn lists have at most one number more than the universe -/
theorem Drawn.length_le (h : Drawn univ xs) : xs.length ≤ univ + 1 := by
  obtain ⟨hs, code, some_of, hd, -, hm⟩ := h
  refine length_below hs (fun x hx => ?_)
  obtain ⟨j, -, -, ⟨-, -, hv⟩ | ⟨-, -, hv⟩⟩ := (hm x).mp hx
  · omega
  · have := hd j x hv
    omega

theorem word_100 : String.ofList (showNat 100) = "100" := by
  rw [show showNat 100 = ['1', '0', '0'] by simp [showNat]]
theorem word_1000 : String.ofList (showNat 1000) = "1000" := by
  rw [show showNat 1000 = ['1', '0', '0', '0'] by simp [showNat]]
theorem word_million : String.ofList (showNat 1000000) = "1000000" := by
  rw [show showNat 1000000 = ['1', '0', '0', '0', '0', '0', '0'] by simp [showNat]]

/-- C77: the session with the numbers of the README. -/
theorem C77_readme (hw : w.Ok 1000000) (hd : ∃ v, w.cv.stod "0.01" = .ok v)
    (hp : ∀ st, w.print st = .ok ()) (d : Disk) :
    ∃ (fuel : Nat) (lists : List (List Nat)) (qs : List (Nat × Nat)),
      w.Draws 100 1000000 lists ∧ qs.length = 1000 ∧ (∀ q ∈ qs, q.1 < 100 ∧ q.2 < 100) ∧
      ((∀ xs ∈ lists, xs ≠ []) → 31 ≤ (w.page - fileSize lists % w.page) % w.page →
        w.session fuel "100" "1000000" "1000" d = .ok {
          built := 0
          decoded := some (100, (lists.map List.length).sum)
          common := .total (11 * (qs.map (commonSize lists)).sum)
          tested := some (100, true) }) := by
  obtain ⟨fuel, lists, qs, h1, h2, h3, h4⟩ := C77_session (num := 100) (n := 1000) hw roomy_million (by omega)
    (by omega) (by omega) (by omega) hd hp d
  rw [word_100, word_1000, word_million] at h4
  have hdrawn := h1.drawn hw
  have hlen : ∀ xs ∈ lists, xs.length ≤ 1000001 := fun xs hx => (hdrawn xs hx).length_le
  refine ⟨fuel, lists, qs, h1, h2, h3, fun hne hP => ?_⟩
  have hsz : fileSize lists < 18446744073709551616 := by
    unfold fileSize
    have := sum_map_le (f := encodedSize) (c := 12000014) (l := lists) (fun xs hx => by
      have hk : Kept { size := 0 } xs := ⟨hne xs hx, Or.inr (List.length_pos_iff.mpr (hne xs hx))⟩
      have := encodedSize_le ((h1.good hw (by omega) { size := 0 }).2.2 xs hx hk)
      have := hlen xs hx
      omega)
    rw [h1.1] at this ⊢
    omega
  have hsum : (lists.map List.length).sum < 18446744073709551616 := by
    have := sum_map_le (f := List.length) (l := lists) hlen
    rw [h1.1] at this
    omega
  have hcommon : 11 * (qs.map (commonSize lists)).sum < 18446744073709551616 := by
    have := sum_map_le (f := commonSize lists) (c := 1000001) (l := qs) (fun q hq => by
      have hl := (h3 q hq).1
      rw [← h1.1] at hl
      unfold commonSize
      rw [List.getElem?_eq_getElem hl, Option.getD_some]
      exact Nat.le_trans (List.length_filter_le _ _) (hlen _ (List.getElem_mem hl)))
    rw [h2] at this
    omega
  rw [h4 hne hsz hP, Nat.mod_eq_of_lt hsum, Nat.mod_eq_of_lt hcommon]

/-- C77: with the statistics printed as they are, the session ends in `build`, before the index is written, if
for some `b` from 1 to 256 no slice of the lists drawn is stored as `b` blocks (C46). -/
theorem C77_print (hw : w.Ok univ) (hu : univ < 2147483648) (hnum : num < 2147483648)
    (hd : ∃ v, w.cv.stod "0.01" = .ok v) {log : Nat → Nat → Nat}
    (hp : w.print = fun st => do let _ ← st.print log) (d : Disk) (word : String) :
    ∃ (fuel : Nat) (lists : List (List Nat)), w.Draws num univ lists ∧
      ∀ b, 1 ≤ b → b ≤ 256 → ¬ HasSliceWith lists b →
        w.session fuel (String.ofList (showNat num)) (String.ofList (showNat univ)) word d
          = .error .ub := by
  obtain ⟨fuel, lists, hdr, hgen⟩ := C77_generate (prog := "./gen_clustered_data") (file := "test_collection")
    (f := id) hw hnum hu
  refine ⟨fuel, lists, hdr, fun b b1 b2 hb => ?_⟩
  have hg := hdr.good hw (by omega)
  have hcw : fileWords (fileBytes (collection univ lists)) = collection univ lists :=
    collection_words (hg { size := 0 }) (fun xs hx hne => (hg { size := 0 }).2.2 xs hx
      ⟨hne, Or.inr (List.length_pos_iff.mpr hne)⟩)
  have hr1 : (Disk.put d (some ("test_collection", fileBytes (collection univ lists)))).words
      "test_collection" = .ok (collection univ lists) := by
    show Except.ok (fileWords (fileBytes (collection univ lists))) = _
    rw [hcw]
  have hw1 : Reads ["--density", "--size", "--out"]
      ["--density", "0.01", "--out", "test_collection.out"]
      [("--density", "0.01"), ("--out", "test_collection.out")] :=
    .opt (by decide) (.opt (by decide) .nil)
  have hc1 : Converts w.cv [("--density", "0.01"), ("--out", "test_collection.out")] := by
    intro p hp
    simp only [List.mem_cons, List.not_mem_nil, or_false] at hp
    rcases hp with rfl | rfl
    · exact ⟨fun _ => hd, fun h => absurd h (by decide)⟩
    · exact ⟨fun h => absurd h (by decide), fun h => absurd h (by decide)⟩
  obtain ⟨o, ho, h⟩ := C52_build_undefined (dbg := w.dbg) (prog := "./build") (m1 := w.minus_one)
    (denser := w.denser) (log := log) hw1 hc1 hr1 b1 b2
  have h := h (hg _) (by
    rintro ⟨xs, hx, hi⟩
    exact hb ⟨xs, (List.mem_filter.mp hx).1, hi⟩)
  unfold World.session
  rw [hgen, ok_bind]
  simp only []
  rw [hp, h]
  rfl

/-- C77: so with few lists it never gets further: there must be at least 256 slices. -/
theorem C77_few_lists (hw : w.Ok univ) (hu : univ < 2147483648)
    (hnum : num * (univ / 65536 + 1) < 256) (hd : ∃ v, w.cv.stod "0.01" = .ok v) {log : Nat → Nat → Nat}
    (hp : w.print = fun st => do let _ ← st.print log) (d : Disk) (word : String) :
    ∃ fuel, w.session fuel (String.ofList (showNat num)) (String.ofList (showNat univ)) word d
      = .error .ub := by
  have hnum' : num ≤ num * (univ / 65536 + 1) := Nat.le_mul_of_pos_right _ (by omega)
  obtain ⟨fuel, lists, hdr, h⟩ := C77_print (num := num) hw hu (by omega) hd hp d word
  refine ⟨fuel, ?_⟩
  have : ¬ ∀ b, 1 ≤ b → b ≤ 256 → HasSliceWith lists b := by
    intro hall
    have hsub : ∀ b ∈ (List.range 256).map (· + 1),
        b ∈ lists.flatMap (fun xs => (List.range (univ / 65536 + 1)).map (sliceBlocks xs)) := by
      intro b hb
      obtain ⟨b', hb', rfl⟩ := List.mem_map.mp hb
      rw [List.mem_range] at hb'
      obtain ⟨xs, hx, i, hc, -, he⟩ := hall (b' + 1) (by omega) (by omega)
      refine List.mem_flatMap.mpr ⟨xs, hx, List.mem_map.mpr ⟨i, List.mem_range.mpr ?_, he⟩⟩
      unfold sliceCard at hc
      obtain ⟨x, hxs⟩ := List.exists_mem_of_length_pos (Nat.pos_of_ne_zero hc)
      rw [List.mem_filter, beq_iff_eq] at hxs
      obtain ⟨-, code, some_of, hd, -, hm⟩ := hdr.drawn hw xs hx
      obtain ⟨j, -, -, ⟨-, -, hv⟩ | ⟨-, -, hv⟩⟩ := (hm x).mp hxs.1
      · omega
      · have := hd j x hv
        omega
    have hnd : ((List.range 256).map (· + 1)).Nodup := by
      unfold List.Nodup
      rw [List.pairwise_map]
      exact List.pairwise_lt_range.imp (fun h => by omega)
    have := nodup_subset_length hnd hsub
    rw [List.length_map, List.length_range, List.length_flatMap] at this
    have h2 := sum_map_le (l := lists) (c := univ / 65536 + 1)
      (f := fun xs => ((List.range (univ / 65536 + 1)).map (sliceBlocks xs)).length)
      (fun xs _ => by rw [List.length_map, List.length_range]; omega)
    rw [hdr.1] at h2
    omega
  apply Classical.byContradiction
  intro hne
  exact this (fun b b1 b2 => Classical.byContradiction (fun hb => hne (h b b1 b2 hb)))

/-! ## The quick start -/

/-- README.md:313 and 60 or 72: a sequence is generated as text and given to the example program, with the
options `-o f` for the files `fs` -/
def World.quick (w : World D) (fuel : Nat) (rest : List Nat → List Nat) (minus : Nat → Nat)
    (place : Option String → List UInt8 → Mem × Nat) (fs : List String) (num univ : String) (d : Disk) :
    Res Nat := do
  -- ./gen_clustered_data 1 1000000 test_sequence
  let seq ← gen_clustered_main w.conv w.sort rest w.code w.some_of fuel
    ["./gen_clustered_data", num, univ, "test_sequence"]
  let d := d.put seq
  -- ./example -o out.bin < test_sequence
  let input ← d.read "test_sequence"
  let cs := textOf input
  example_program w.dbg w.print place ("./example" :: outWords fs)
    (lex (streamVal minus) (cs.length + 1) cs)

theorem example_program_input {dbg : Bool} {print : Stats → Res Unit}
    {place : Option String → List UInt8 → Mem × Nat} {prog : String} {fs : List String} {nums : List Nat}
    {toks : List (Option Nat)} (h : example_input toks = .ok nums) (hv : ∀ x ∈ nums, x < 4294967296)
    (hl : nums.length < 4294967296) :
    example_program dbg print place (prog :: outWords fs) toks
      = example_program dbg print place (prog :: outWords fs) (some nums.length :: (nums.map some ++ [])) := by
  rw [example_program_eq, example_program_eq, h, C53_input hl hv]

theorem quick_eq (hw : w.Ok univ) (h1 : 0 < num) (hnum : num < 2147483648) (hu : univ < 2147483648)
    (rest : List Nat → List Nat) (minus : Nat → Nat) :
    ∃ (fuel : Nat) (xs : List Nat), Drawn univ xs ∧
      (∀ v, v ∈ xs ↔ Chosen univ (w.code 0) (w.some_of 0) 65536 v) ∧
      ∀ place fs d, w.quick fuel rest minus place fs (String.ofList (showNat num))
        (String.ofList (showNat univ)) d
        = example_program w.dbg w.print place ("./example" :: outWords fs)
            (some xs.length :: (xs.map some ++ [])) := by
  obtain ⟨fuel, out, xs, hg, hs, hm, he⟩ := C64_clustered_text (rest := rest) (minus := minus)
    (code := w.code) hw.sort (show univ < 4294901760 by omega) h1 hw.draws
  have hdr : Drawn univ xs := ⟨hs, w.code 0, w.some_of 0, fun j x hx => hw.draws 0 j x hx,
    fun j => hw.few 0 j, hm⟩
  refine ⟨fuel, xs, hdr, hm, fun place fs d => ?_⟩
  have hgen : gen_clustered_main w.conv w.sort rest w.code w.some_of fuel
      ["./gen_clustered_data", String.ofList (showNat num), String.ofList (showNat univ), "test_sequence"]
      = .ok (some ("test_sequence", textBytes (lines out))) := by
    unfold gen_clustered_main
    simp only [conv_atoi hw.conv hnum, conv_atoi hw.conv hu, ok_bind, List.not_mem_nil, if_false, hg]
    rfl
  unfold World.quick
  rw [hgen, ok_bind]
  simp only []
  rw [show (d.put (some ("test_sequence", textBytes (lines out)))).read "test_sequence"
    = .ok (textBytes (lines out)) by unfold Disk.put Disk.write Disk.read; simp, ok_bind,
    (C77_text [] out).2]
  rw [C64_example_input] at he
  have hl := hdr.length_le
  refine example_program_input he (fun x hx => ?_) (by omega)
  obtain ⟨j, -, -, ⟨-, -, hv⟩ | ⟨-, -, hv⟩⟩ := (hm x).mp hx
  · omega
  · have := (hw.draws 0 j x hv).2
    omega

/-- C77: the quick start of the README.  The example program works on the first list drawn.  If it is not empty
and the statistics are printed, the program ends with exit code 0 exactly if one slot for each number of the
list is enough for what the vector code writes (C43), and is undefined otherwise. -/
theorem C77_quick_start (hw : w.Ok univ) (h1 : 0 < num) (hnum : num < 2147483648) (hu : univ < 2147483648)
    (rest : List Nat → List Nat) (minus : Nat → Nat) (hp : ∀ st, w.print st = .ok ()) :
    ∃ (fuel : Nat) (xs : List Nat), Drawn univ xs ∧
      (∀ v, v ∈ xs ↔ Chosen univ (w.code 0) (w.some_of 0) 65536 v) ∧
      (xs ≠ [] → ∀ (place : Option String → List UInt8 → Mem × Nat) (fs : List String) (d : Disk),
        (∀ f bytes, Loaded (place f bytes).1 (place f bytes).2 bytes ∧
          Readable (place f bytes).1 ((place f bytes).2 + bytes.length) 31) →
        (HasRoom xs xs.length → w.quick fuel rest minus place fs (String.ofList (showNat num))
          (String.ofList (showNat univ)) d = .ok 0) ∧
        (¬ HasRoom xs xs.length → w.quick fuel rest minus place fs (String.ofList (showNat num))
          (String.ofList (showNat univ)) d = .error .ub)) := by
  obtain ⟨fuel, xs, hdr, hm, h⟩ := quick_eq hw h1 hnum hu rest minus
  refine ⟨fuel, xs, hdr, hm, fun hne place fs d hpl => ?_⟩
  have hv : Valid xs := ⟨hne, hdr.1, fun x hx => by
    obtain ⟨j, -, -, ⟨-, -, hv⟩ | ⟨-, -, hv⟩⟩ := (hm x).mp hx
    · omega
    · have := (hw.draws 0 j x hv).2
      omega⟩
  rw [h]
  exact C53_program hv [] hp hpl

/-- C77: with the statistics printed as they are, and a universe below 255 · 65536 as in the README, the quick
start is undefined whatever is drawn. -/
theorem C77_quick_print (hw : w.Ok univ) (h1 : 0 < num) (hnum : num < 2147483648) (hu : univ < 16711680)
    (rest : List Nat → List Nat) (minus : Nat → Nat) {log : Nat → Nat → Nat}
    (hp : w.print = fun st => do let _ ← st.print log) :
    ∃ fuel, ∀ place fs d, w.quick fuel rest minus place fs (String.ofList (showNat num))
      (String.ofList (showNat univ)) d = .error .ub := by
  obtain ⟨fuel, xs, hdr, hm, h⟩ := quick_eq hw h1 hnum (by omega) rest minus
  refine ⟨fuel, fun place fs d => ?_⟩
  rw [h]
  have hlt : ∀ x ∈ xs, x < 16711680 := fun x hx => by
    obtain ⟨j, -, -, ⟨-, -, hv⟩ | ⟨-, -, hv⟩⟩ := (hm x).mp hx
    · omega
    · have := (hw.draws 0 j x hv).2
      omega
  by_cases hne : xs = []
  · rw [hne]
    exact C53_zero _
  · rw [hp]
    exact C53_print ⟨hne, hdr.1, fun x hx => by have := hlt x hx; omega⟩ hlt []

/-! ## `union` on the same files -/

/-- C77: script/queries.py runs `union` with the same collection and queries.  The generator draws from the
universe with its upper end, so two lists can have one value more than the universe together, and then `union`
writes behind its buffer: it is undefined, in every universe and however the file is mapped. -/
theorem C77_union_overflow (h0 : 0 < univ) (hu : univ < 4294901760) {params : Params} (hs : params.size = 0)
    {dbg dbg' : Bool} (P a : Nat) (x : UScratch) (hx : x.Ok) :
    Drawn univ (List.range univ) ∧ Drawn univ [univ] ∧
    ∃ offs seqs st, build_index dbg params (collection univ [List.range univ, [univ]]) = .ok (offs, seqs, st) ∧
      tool_union dbg' (mapped P a (save_index offs seqs)) a 1 (pairTokens [(0, 1)]) x = .error .ub := by
  have hr : Drawn univ (List.range univ) := by
    refine ⟨List.pairwise_lt_range, fun _ => 1, fun _ => [], fun j x hx => (by cases hx), fun j => by simp,
      fun v => ?_⟩
    rw [List.mem_range]
    constructor
    · exact fun h => ⟨v / 65536, by omega, by omega, Or.inl ⟨rfl, rfl, h⟩⟩
    · rintro ⟨j, -, -, ⟨-, -, h⟩ | ⟨-, h, -⟩⟩
      · exact h
      · exact absurd rfl h
  have h1 : Drawn univ [univ] := by
    refine ⟨List.pairwise_singleton _ _, fun j => if j = (univ - 1) / 65536 then 2 else 0,
      fun j => if j = (univ - 1) / 65536 then [univ] else [], fun j x hx => ?_, fun j => ?_, fun v => ?_⟩
    · simp only at hx
      split at hx
      · rw [List.mem_singleton] at hx
        omega
      · cases hx
    · simp only
      split <;> simp
    · rw [List.mem_singleton]
      constructor
      · intro h
        refine ⟨(univ - 1) / 65536, by omega, by omega, Or.inr ?_⟩
        simp [h]
      · rintro ⟨j, -, -, ⟨h, -, -⟩ | ⟨h, -, hv⟩⟩
        · simp only at h
          split at h <;> omega
        · simp only at h hv
          split at hv
          · exact List.mem_singleton.mp hv
          · cases hv
  have vr : Valid (List.range univ) :=
    ⟨fun e => by rw [List.range_eq_nil] at e; omega, List.pairwise_lt_range,
      fun x hx => by rw [List.mem_range] at hx; omega⟩
  have v1 : Valid [univ] := ⟨by simp, List.pairwise_singleton _ _,
    fun x hx => by rw [List.mem_singleton] at hx; omega⟩
  have hg : GoodCollection params univ [List.range univ, [univ]] := by
    refine ⟨by omega, fun xs hx => ?_, fun xs hx _ => ?_⟩
    · simp only [List.mem_cons, List.not_mem_nil, or_false] at hx
      rcases hx with rfl | rfl
      · rw [List.length_range]; omega
      · simp
    · simp only [List.mem_cons, List.not_mem_nil, or_false] at hx
      rcases hx with rfl | rfl
      · exact vr
      · exact v1
  have hk : keptLists params [List.range univ, [univ]] = [List.range univ, [univ]] :=
    kept_all hs (fun xs hx => by
      simp only [List.mem_cons, List.not_mem_nil, or_false] at hx
      rcases hx with rfl | rfl
      · exact vr.1
      · exact v1.1)
  obtain ⟨offs, seqs, st, hb⟩ : ∃ offs seqs st, build_index dbg params
      (collection univ [List.range univ, [univ]]) = .ok (offs, seqs, st) := by
    obtain ⟨st, hb, -⟩ := build_index_spec (dbg := dbg) hg
    exact ⟨_, _, st, hb⟩
  refine ⟨hr, h1, offs, seqs, st, hb, ?_⟩
  have hsz : (save_index offs seqs).length < 18446744073709551616 := by
    rw [file_length hg hb, hk]
    have e1 := encodedSize_le vr
    have e2 := encodedSize_le v1
    rw [List.length_range] at e1
    unfold fileSize
    simp only [List.map_cons, List.map_nil, List.sum_cons, List.sum_nil, List.length_cons,
      List.length_nil] at e2 ⊢
    omega
  refine (C69_tool_union hg hb hsz P a (n := 1) (qs := [(0, 1)]) (by omega) (fun q hq => ?_) x hx).2
    (fun h => ?_)
  · rw [List.mem_singleton] at hq
    subst hq
    rw [hk]
    exact ⟨by simp, by simp⟩
  · have := h (0, 1) (by simp)
    rw [hk] at this
    rcases this with ⟨h, -⟩ | ⟨-, -, h⟩
    · cases h
    · have h2 : 0 + (uni (List.range univ) [univ]).length ≤ univ := (h _ (enumerates_uni vr v1)).1
      rw [uni_length vr v1, List.length_range,
        List.filter_eq_self.mpr (fun v hv => by
          rw [List.mem_singleton] at hv
          simp [hv])] at h2
      simp at h2
      omega

/-! ## The other `main` functions -/

/-- C77: without their arguments the programs print their usage, and nothing is read or written. -/
theorem C77_usage {α : Type} {run : String → Res α} {conv : Bool → Nat → Res Nat}
    {sort rest : List Nat → List Nat} {code : Nat → Nat → Nat} {some_of : Nat → Nat → List Nat} {fuel : Nat}
    {length element : Nat → Nat → Nat → Nat} (argv : List String) :
    (argv.length < 4 → gen_clustered_main conv sort rest code some_of fuel argv = .ok none) ∧
    (argv.length < 6 → gen_uniform_main conv sort length element argv = .ok none) ∧
    (argv.length < 2 → index_main run argv = .ok none) := by
  refine ⟨fun h => ?_, fun h => ?_, fun h => ?_⟩
  · match argv, h with
    | [], _ => rfl
    | [_], _ => rfl
    | [_, _], _ => rfl
    | [_, _, _], _ => rfl
  · match argv, h with
    | [], _ => rfl
    | [_], _ => rfl
    | [_, _], _ => rfl
    | [_, _, _], _ => rfl
    | [_, _, _, _], _ => rfl
    | [_, _, _, _, _], _ => rfl
  · match argv, h with
    | [], _ => rfl
    | [_], _ => rfl

/-- C77: `--binary` counts anywhere behind the file name, and more than once; any other word there is ignored. -/
theorem C77_binary {conv : Bool → Nat → Res Nat} {sort rest : List Nat → List Nat} {code : Nat → Nat → Nat}
    {some_of : Nat → Nat → List Nat} {fuel : Nat} {prog a b file : String} (opts : List String) :
    gen_clustered_main conv sort rest code some_of fuel (prog :: a :: b :: file :: opts)
      = gen_clustered_main conv sort rest code some_of fuel
          (prog :: a :: b :: file :: if "--binary" ∈ opts then ["--binary"] else []) := by
  unfold gen_clustered_main
  by_cases h : "--binary" ∈ opts <;> simp [h]

/-- C77: `gen_uniform_data` writes a collection that can be read back, with lists of the numbers drawn. -/
theorem C77_uniform {conv : Bool → Nat → Res Nat} {sort : List Nat → List Nat}
    {length element : Nat → Nat → Nat → Nat} (hc : conv = conv_iso ∨ conv = conv_glibc) (hs : SortNat sort)
    (he : ∀ u i k, element u i k ≤ u) {lo hi : Nat} (hnum : num < 2147483648) (hlo : lo < 2147483648)
    (hhi : hi < 2147483648) (hu : univ < 2147483648) (prog file : String) (rest : List String) (d : Disk) :
    ∃ lists, gen_uniform_main conv sort length element (prog :: String.ofList (showNat num)
        :: String.ofList (showNat lo) :: String.ofList (showNat hi) :: String.ofList (showNat univ) :: file
        :: rest) = .ok (some (file, fileBytes (collection univ lists))) ∧
      (d.put (some (file, fileBytes (collection univ lists)))).words file = .ok (collection univ lists) ∧
      (∀ params, GoodCollection params univ lists) ∧ lists.length = num ∧
      ∀ i xs, lists[i]? = some xs → xs.Pairwise (· < ·) ∧
        ∀ v, v ∈ xs ↔ ∃ k, k < length lo hi i ∧ element univ i k = v := by
  obtain ⟨lists, h1, h2, h3, h4⟩ := C47_uniform (params := { size := 0 }) (num := num) (length := length lo hi)
    hs (show univ < 4294901760 by omega) (he univ)
  have hat : ∀ k, k < 2147483648 → atoi conv (String.ofList (showNat k)).toList = .ok k := by
    intro k hk
    rw [toList_show]
    rcases hc with h | h <;> rw [h]
    · exact (C64_atoi k).1 hk
    · exact (C64_atoi k).2.2 (by omega)
  have hv : ∀ xs ∈ lists, xs ≠ [] → Valid xs := fun xs hx hne =>
    h2.2.2 xs hx ⟨hne, Or.inr (List.length_pos_iff.mpr hne)⟩
  refine ⟨lists, ?_, ?_, fun params => ⟨h2.1, h2.2.1, fun xs hx hk => hv xs hx hk.1⟩, h3, h4⟩
  · unfold gen_uniform_main
    simp only [hat num hnum, hat lo hlo, hat hi hhi, hat univ hu, ok_bind, h1]
    rfl
  · unfold Disk.put Disk.words Disk.write Disk.read
    simp only [if_true, ok_bind]
    rw [collection_words h2 hv]
    rfl

/-! ## Examples -/

/-- a world in which the programs draw 3, 5 and 300 for each list -/
def sampleWorld : World Nat where
  dbg := false
  sort := insSort
  code := fun _ j => if j = 0 then 2 else 0
  some_of := fun _ j => if j = 0 then [300, 3, 5, 3] else []
  conv := conv_iso
  cv := sampleConv
  minus_one := 0
  denser := sampleDenser
  print := fun _ => .ok ()
  tab := stdTab
  scratch := List.replicate 1024 0
  rng := fun i k hi => (i + k) % (hi + 1)
  page := 65536
  addr := 4096

theorem sampleWorld_ok : sampleWorld.Ok 1000000 where
  sort := sortNat_insSort
  draws := by
    intro i j x hx
    simp only [sampleWorld] at hx
    split at hx
    · simp only [List.mem_cons, List.not_mem_nil, or_false] at hx
      omega
    · cases hx
  few := by
    intro i j
    simp only [sampleWorld]
    split <;> simp
  conv := Or.inl rfl
  tab := stdTab_ok
  scratch := List.length_replicate ..
  rng := fun i k hi => by
    have := Nat.mod_lt (i + k) (show 0 < hi + 1 by omega)
    simp only [sampleWorld]
    omega

/-- the session of the README in this world: 100 lists, 300 numbers, and 1000 intersections of three numbers,
11 times -/
example (d : Disk) : ∃ fuel, sampleWorld.session fuel "100" "1000000" "1000" d
    = .ok ⟨0, some (100, 300), .total 33000, some (100, true)⟩ := by
  obtain ⟨fuel, lists, qs, h1, h2, h3, h4⟩ := C77_readme sampleWorld_ok ⟨1, rfl⟩ (fun _ => rfl) d
  have hall : ∀ (i : Nat) xs, lists[i]? = some xs → xs = [3, 5, 300] := by
    intro i xs hi
    obtain ⟨hs, hm⟩ := h1.2 i xs hi
    refine sorted_ext hs (by decide) (fun v => (hm v).trans ?_)
    constructor
    · rintro ⟨j, -, -, ⟨hc, -, -⟩ | ⟨-, -, hv⟩⟩
      · simp only [sampleWorld] at hc
        split at hc <;> omega
      · simp only [sampleWorld] at hv
        split at hv
        · simp only [List.mem_cons, List.not_mem_nil, or_false] at hv ⊢
          omega
        · cases hv
    · intro hv
      refine ⟨0, by omega, by omega, Or.inr ⟨by show 2 ≠ 0; decide, by show 2 ≠ 1; decide, ?_⟩⟩
      simp only [sampleWorld, if_true, List.mem_cons, List.not_mem_nil, or_false] at hv ⊢
      omega
  have hl : lists = List.replicate 100 [3, 5, 300] := by
    refine List.eq_replicate_iff.mpr ⟨h1.1, fun xs hx => ?_⟩
    obtain ⟨i, hi⟩ := List.getElem?_of_mem hx
    exact hall i xs hi
  have hv : Valid [3, 5, 300] := ⟨by decide, by decide, by decide⟩
  have hsz : 1 ≤ fileSize lists ∧ fileSize lists ≤ 5000 := by
    unfold fileSize
    have := sum_map_le (f := encodedSize) (l := lists) (c := 38) (fun xs hx => by
      obtain ⟨i, hi⟩ := List.getElem?_of_mem hx
      rw [hall i xs hi]
      exact encodedSize_le hv)
    rw [h1.1] at this ⊢
    omega
  refine ⟨fuel, (h4 (fun xs hx => ?_) ?_).trans ?_⟩
  · obtain ⟨i, hi⟩ := List.getElem?_of_mem hx
    rw [hall i xs hi]
    simp
  · show 31 ≤ (65536 - fileSize lists % 65536) % 65536
    omega
  · have e1 : (lists.map List.length).sum = 300 := by rw [hl]; decide
    have e2 : (qs.map (commonSize lists)).sum = 3000 := by
      have : qs.map (commonSize lists) = List.replicate 1000 3 := by
        refine List.eq_replicate_iff.mpr ⟨by rw [List.length_map, h2], fun n hn => ?_⟩
        obtain ⟨q, hq, rfl⟩ := List.mem_map.mp hn
        obtain ⟨q1, q2⟩ := h3 q hq
        rw [← h1.1] at q1 q2
        have e1 := List.getElem?_eq_getElem q1
        have e2 := List.getElem?_eq_getElem q2
        unfold commonSize
        rw [e1, e2, hall _ _ e1, hall _ _ e2]
        decide
      rw [this, List.sum_replicate_nat]
    rw [e1, e2]

/-- one list in the universe of the README has at most 16 slices: with the statistics printed, no session gets
past `build` (nor with up to 15 lists) -/
example (d : Disk) (log : Nat → Nat → Nat) : ∃ fuel,
    { sampleWorld with print := fun st => do let _ ← st.print log }.session fuel "1" "1000000" "1000" d
      = .error .ub := by
  obtain ⟨fuel, h⟩ := C77_few_lists (num := 1) (univ := 1000000) (log := log) (d := d) (word := "1000")
    (w := { sampleWorld with print := fun st => do let _ ← st.print log })
    ⟨sampleWorld_ok.sort, sampleWorld_ok.draws, sampleWorld_ok.few, sampleWorld_ok.conv, sampleWorld_ok.tab,
      sampleWorld_ok.scratch, sampleWorld_ok.rng⟩ (by omega) (by omega) ⟨1, rfl⟩ rfl
  rw [word_million, show String.ofList (showNat 1) = "1" by rw [show showNat 1 = ['1'] by simp [showNat]]] at h
  exact ⟨fuel, h⟩

/-- and the quick start of the README is undefined, in memory and through a file -/
example (d : Disk) (log : Nat → Nat → Nat) (place : Option String → List UInt8 → Mem × Nat) : ∃ fuel,
    { sampleWorld with print := fun st => do let _ ← st.print log }.quick fuel id id place ["out.bin"]
      "1" "1000000" d = .error .ub := by
  obtain ⟨fuel, h⟩ := C77_quick_print (num := 1) (univ := 1000000) (log := log) (rest := id) (minus := id)
    (w := { sampleWorld with print := fun st => do let _ ← st.print log })
    ⟨sampleWorld_ok.sort, sampleWorld_ok.draws, sampleWorld_ok.few, sampleWorld_ok.conv, sampleWorld_ok.tab,
      sampleWorld_ok.scratch, sampleWorld_ok.rng⟩ (by omega) (by omega) (by omega) rfl
  rw [word_million, show String.ofList (showNat 1) = "1" by rw [show showNat 1 = ['1'] by simp [showNat]]] at h
  exact ⟨fuel, h place ["out.bin"] d⟩

/-- without the statistics the quick start with 3, 5, 300 is undefined as well: three slots are not enough for
the eight that are written -/
example (d : Disk) : ∃ fuel, sampleWorld.quick fuel id id (fun _ bytes => (memOf 64 bytes 31, 64)) []
    (String.ofList (showNat 1)) (String.ofList (showNat 1000000)) d = .error .ub := by
  obtain ⟨fuel, xs, hdr, hm, h⟩ := C77_quick_start (num := 1) sampleWorld_ok (by omega) (by omega) (by omega)
    id id (fun _ => rfl)
  have hin : ∀ v, v ∈ xs ↔ v = 3 ∨ v = 5 ∨ v = 300 := by
    refine fun v => (hm v).trans ?_
    constructor
    · rintro ⟨j, -, -, ⟨hc, -, -⟩ | ⟨-, -, hv⟩⟩
      · simp only [sampleWorld] at hc
        split at hc <;> omega
      · simp only [sampleWorld] at hv
        split at hv
        · simp only [List.mem_cons, List.not_mem_nil, or_false] at hv
          omega
        · cases hv
    · intro hv
      refine ⟨0, by omega, by omega, Or.inr ⟨by show 2 ≠ 0; decide, by show 2 ≠ 1; decide, ?_⟩⟩
      simp only [sampleWorld, if_true, List.mem_cons, List.not_mem_nil, or_false]
      omega
  refine ⟨fuel, (h (List.ne_nil_of_mem ((hin 3).mpr (Or.inl rfl))) _ _ d (fun f bytes =>
    ⟨loaded_memOf _ _ _, readable_memOf _ _ _⟩)).2 (fun hr => ?_)⟩
  have hx : xs = [3, 5, 300] := by
    exact sorted_ext hdr.1 (by decide) (fun v => by rw [hin v]; simp)
  subst hx
  have hc : sliceCard [3, 5, 300] 0 = 3 := by decide
  have := hr.2 0 0 (by omega) (by omega) (by
    unfold sparseSlice
    rw [decide_eq_true_eq, hc]
    have := sparseCost_le (xs := [3, 5, 300]) (by decide) 0
    rw [hc] at this
    omega) (by decide) (by decide)
  revert this
  decide

/-- a universe of 15 · 65536 + 5 values is too short at its end -/
example : Drawn 983045 (List.range 983045) ∧ ¬ HasRoom (List.range 983045) 983045 :=
  C77_no_room (r := 5) (by omega) (by omega) (by omega) (by omega) (by omega)

/-- the universe of the README is not, but `union` has one value too many -/
example : ∃ offs seqs st, build_index true { size := 0 } (collection 1000000 [List.range 1000000, [1000000]])
      = .ok (offs, seqs, st) ∧
    tool_union false (mapped 4096 0 (save_index offs seqs)) 0 1 (pairTokens [(0, 1)]) UScratch.init
      = .error .ub :=
  (C77_union_overflow (by omega) (by omega) rfl 4096 0 _ UScratch.init_ok).2.2

/-- two lists, drawn uniformly (the same two numbers for both) -/
example (d : Disk) : ∃ lists, gen_uniform_main conv_glibc insSort (fun lo _ _ => lo) (fun u _ k => (7 * k) % (u + 1))
    ["./gen_uniform_data", String.ofList (showNat 2), String.ofList (showNat 2), String.ofList (showNat 10),
      String.ofList (showNat 1000), "c"] = .ok (some ("c", fileBytes (collection 1000 lists))) ∧
    (d.put (some ("c", fileBytes (collection 1000 lists)))).words "c" = .ok (collection 1000 lists) := by
  obtain ⟨lists, h1, h2, -⟩ := C77_uniform (num := 2) (lo := 2) (hi := 10) (univ := 1000)
    (length := fun lo _ _ => lo) (element := fun u _ k => (7 * k) % (u + 1)) (Or.inr rfl) sortNat_insSort
    (fun u i k => by have := Nat.mod_lt (7 * k) (show 0 < u + 1 by omega); omega) (by omega) (by omega)
    (by omega) (by omega) "./gen_uniform_data" "c" [] d
  exact ⟨lists, h1, h2⟩

end Sliced
