import Verif.Model.Main
import Verif.Props.Build
import Verif.Props.Print
import Verif.Props.ToolsRoom
/-!
# C53: the example program, from the command line and the standard input
-/
namespace Sliced

variable {dbg : Bool} {print : Stats → Res Unit}
variable {place : Option String → List UInt8 → Mem × Nat}

/-! ## Reading the list -/

theorem example_fill_nums (nums : List Nat) (hlt : ∀ x ∈ nums, x < 4294967296) :
    ∀ (k : Nat) (x : Option Nat) (ts : List (Option Nat)) (input : List Nat),
      example_fill (nums.length + k) x (nums.map some ++ ts, false) input
        = example_fill k (nums.getLast?.or x) (ts, false) (input ++ nums) := by
  induction nums with
  | nil => intro k x ts input; simp
  | cons y nums ih =>
    intro k x ts input
    rw [List.length_cons, show nums.length + 1 + k = (nums.length + k) + 1 by omega, example_fill]
    simp only [List.map_cons, List.cons_append, extract]
    rw [if_pos (hlt y List.mem_cons_self)]
    simp only
    rw [ih (fun z hz => hlt z (List.mem_cons_of_mem _ hz))]
    congr 1
    · cases nums with
      | nil => simp
      | cons z zs =>
        rw [List.getLast?_cons_cons]
        cases hg : (z :: zs).getLast? with
        | none => simp at hg
        | some r => rfl
    · simp

/-- a failed stream leaves the variable alone -/
theorem example_fill_failed (k y : Nat) : ∀ (ts : List (Option Nat)) (input : List Nat),
    example_fill k (some y) (ts, true) input = .ok (input ++ List.replicate k y) := by
  induction k with
  | zero => intro ts input; simp [example_fill]
  | succ k ih =>
    intro ts input
    rw [example_fill]
    simp only [extract]
    rw [ih, List.replicate_succ, List.append_assoc]
    rfl

theorem example_fill_end (k y : Nat) (input : List Nat) :
    example_fill k (some y) ([], false) input = .ok (input ++ List.replicate k y) := by
  cases k with
  | zero => simp [example_fill]
  | succ k =>
    rw [example_fill]
    simp only [extract]
    rw [example_fill_failed, List.replicate_succ, List.append_assoc]
    rfl

theorem example_input_eq {n : Nat} (hn : n < 4294967296) (ts : List (Option Nat)) :
    example_input (some n :: ts) = example_fill n none (ts, false) [] := by
  unfold example_input
  simp only [extract]
  rw [if_pos hn]

/-- C53: a count and as many numbers are read as they are; what follows is ignored. -/
theorem C53_input {nums : List Nat} (hn : nums.length < 4294967296)
    (hlt : ∀ x ∈ nums, x < 4294967296) (rest : List (Option Nat)) :
    example_input (some nums.length :: (nums.map some ++ rest)) = .ok nums := by
  rw [example_input_eq hn]
  have := example_fill_nums nums hlt 0 none rest []
  rw [Nat.add_zero] at this
  rw [this]
  simp [example_fill]

/-- C53: if there are fewer numbers than announced, the last one is repeated. -/
theorem C53_short_input {nums : List Nat} {last k : Nat} (hlast : nums.getLast? = some last)
    (hn : nums.length + k < 4294967296) (hlt : ∀ x ∈ nums, x < 4294967296) :
    example_input (some (nums.length + k) :: nums.map some)
      = .ok (nums ++ List.replicate k last) := by
  rw [example_input_eq hn]
  have := example_fill_nums nums hlt k none [] []
  rw [List.append_nil] at this
  rw [this, hlast]
  exact example_fill_end k last nums

/-- C53: text that is no number counts as 0, and so does everything after it. -/
theorem C53_text_input {nums : List Nat} {k : Nat} (hk : 0 < k)
    (hn : nums.length + k < 4294967296) (hlt : ∀ x ∈ nums, x < 4294967296)
    (rest : List (Option Nat)) :
    example_input (some (nums.length + k) :: (nums.map some ++ none :: rest))
      = .ok (nums ++ List.replicate k 0) := by
  rw [example_input_eq hn, example_fill_nums nums hlt k none _ []]
  cases k with
  | zero => omega
  | succ k =>
    rw [example_fill]
    simp only [extract]
    rw [example_fill_failed, List.replicate_succ, List.append_assoc, List.nil_append]
    rfl

/-- C53: without any number, or without one behind a positive count, an uninitialised variable is read. -/
theorem C53_no_input {n : Nat} (h0 : 0 < n) :
    example_input [] = .error .ub ∧ example_input [some n] = .error .ub := by
  refine ⟨rfl, ?_⟩
  unfold example_input
  simp only [extract]
  cases n with
  | zero => omega
  | succ n =>
    split
    · rename_i h
      split at h
      · cases h; rfl
      · cases h; rfl
    · rfl

/-! ## Options -/

/-- the words `-o f₁ -o f₂ …` -/
def outWords (fs : List String) : List String := fs.flatMap (fun f => ["-o", f])

theorem example_args_outs (argv : List String) (tail : List String) (fs : List String) :
    ∀ (k i : Nat) (o : Option String), argv.drop i = outWords fs ++ tail →
      example_args argv (k + fs.length) i o
        = example_args argv k (i + 2 * fs.length) (fs.getLast?.or o) := by
  have harg : ∀ {ws : List String} {i : Nat} {w : String}, argv.drop i = w :: ws →
      argAt argv i = .ok (some w) ∧ i < argv.length ∧ argv.drop (i + 1) = ws := by
    intro ws i w h
    have hi : i < argv.length := by
      have := congrArg List.length h
      simp only [List.length_drop, List.length_cons] at this
      omega
    rw [List.drop_eq_getElem_cons hi] at h
    simp only [List.cons.injEq] at h
    refine ⟨?_, hi, h.2⟩
    unfold argAt
    rw [if_pos hi, List.getElem?_eq_getElem hi, h.1]
  induction fs with
  | nil => intro k i o _; rfl
  | cons f fs ih =>
    intro k i o hd
    obtain ⟨h1, h2, h3⟩ := harg hd
    obtain ⟨h4, h5, h6⟩ := harg h3
    rw [List.length_cons, ← Nat.add_assoc, example_args, if_neg (Nat.ne_of_lt h2), h1, ok_bind]
    simp only [cstr, ok_bind, h4, if_true]
    rw [ih k (i + 2) (some f) h6, show i + 2 * (fs.length + 1) = i + 2 + 2 * fs.length by omega]
    congr 1
    cases fs with
    | nil => rfl
    | cons g gs =>
      rw [List.getLast?_cons_cons]
      cases hg : (g :: gs).getLast? with
      | none => simp at hg
      | some r => rfl

theorem outWords_length (fs : List String) : (outWords fs).length = 2 * fs.length := by
  induction fs with
  | nil => rfl
  | cons f fs ih =>
    unfold outWords at *
    rw [List.flatMap_cons, List.length_append, ih]
    simp only [List.length_cons, List.length_nil]
    omega

/-- C53: the last `-o` counts. -/
theorem C53_options (prog : String) (fs : List String) :
    example_args (prog :: outWords fs) (prog :: outWords fs).length 1 none
      = .ok (.inr fs.getLast?) := by
  have h := example_args_outs (prog :: outWords fs) [] fs (fs.length + 1) 1 none (by simp)
  have hl : (prog :: outWords fs).length = 2 * fs.length + 1 := by
    rw [List.length_cons, outWords_length]
  rw [show fs.length + 1 + fs.length = (prog :: outWords fs).length by omega] at h
  rw [h, example_args, if_pos (by omega), Option.or_none]

/-- C53: any other word where an option is expected ends the program with exit code 1, whatever comes
on the standard input. -/
theorem C53_unknown_option {prog w : String} {fs rest : List String} (hw : w ≠ "-o")
    (toks : List (Option Nat)) :
    example_program dbg print place (prog :: (outWords fs ++ w :: rest)) toks = .ok 1 := by
  have h := example_args_outs (prog :: (outWords fs ++ w :: rest)) (w :: rest) fs
    (fs.length + rest.length + 2) 1 none (by simp)
  have hl : (prog :: (outWords fs ++ w :: rest)).length = 2 * fs.length + rest.length + 2 := by
    rw [List.length_cons, List.length_append, outWords_length, List.length_cons]
    omega
  rw [show fs.length + rest.length + 2 + fs.length
    = (prog :: (outWords fs ++ w :: rest)).length by omega] at h
  have ha : argAt (prog :: (outWords fs ++ w :: rest)) (1 + 2 * fs.length) = .ok (some w) := by
    unfold argAt
    rw [if_pos (by omega), Nat.add_comm, List.getElem?_cons_succ, ← outWords_length,
      List.getElem?_append_right (Nat.le_refl _), Nat.sub_self]
    rfl
  unfold example_program
  rw [h, example_args, if_neg (by omega), ha, ok_bind]
  simp only [cstr, ok_bind]
  rw [if_neg hw]
  rfl

/-- C53: `-o` at the end of the command line is undefined: the loop runs past the end of the
arguments. -/
theorem C53_missing_value {prog : String} {fs : List String} (toks : List (Option Nat)) :
    example_program dbg print place (prog :: (outWords fs ++ ["-o"])) toks = .error .ub := by
  have h := example_args_outs (prog :: (outWords fs ++ ["-o"])) ["-o"] fs
    (fs.length + 2) 1 none (by simp)
  have hl : (prog :: (outWords fs ++ ["-o"])).length = 2 * fs.length + 2 := by
    rw [List.length_cons, List.length_append, outWords_length, List.length_singleton]
  rw [show fs.length + 2 + fs.length = (prog :: (outWords fs ++ ["-o"])).length by omega] at h
  have ha : argAt (prog :: (outWords fs ++ ["-o"])) (1 + 2 * fs.length) = .ok (some "-o") := by
    unfold argAt
    rw [if_pos (by omega), Nat.add_comm, List.getElem?_cons_succ, ← outWords_length,
      List.getElem?_append_right (Nat.le_refl _), Nat.sub_self]
    rfl
  have hb : argAt (prog :: (outWords fs ++ ["-o"])) (1 + 2 * fs.length + 1) = .ok none := by
    unfold argAt
    rw [if_neg (by omega), if_pos (by omega)]
  unfold example_program
  rw [h, example_args, if_neg (by omega), ha, ok_bind]
  simp only [cstr, ok_bind, hb, if_true]
  rw [example_args, if_neg (by omega)]
  unfold argAt
  rw [if_neg (by omega), if_neg (by omega)]
  rfl

/-! ## The program -/

/-- The program gets past its options. -/
theorem example_program_eq (prog : String) (fs : List String) (toks : List (Option Nat)) :
    example_program dbg print place (prog :: outWords fs) toks = (do
      let input ← example_input toks
      let (st, bytes) ← build_sequence dbg input []
      print st
      match fs.getLast? with
      | some name =>
        let (m, a) := place (some name) (save_sequence bytes)
        example_main dbg m (a + 8) input
      | none =>
        let (m, a) := place none bytes
        example_main dbg m a input) := by
  unfold example_program
  rw [C53_options, ok_bind]
  rfl

/-- C53: on a valid list, given completely, the program ends with exit code 0 if `size()` slots are
enough to decode it (C43) and statistics can be printed, in memory or through a file.  If the slots are
not enough it writes out of bounds. -/
theorem C53_program {prog : String} {fs : List String} {nums : List Nat} (hv : Valid nums)
    (rest : List (Option Nat)) (hp : ∀ st, print st = .ok ())
    (hpl : ∀ f bytes, Loaded (place f bytes).1 (place f bytes).2 bytes ∧
      Readable (place f bytes).1 ((place f bytes).2 + bytes.length) 31) :
    (HasRoom nums nums.length → example_program dbg print place (prog :: outWords fs)
      (some nums.length :: (nums.map some ++ rest)) = .ok 0) ∧
    (¬ HasRoom nums nums.length → example_program dbg print place (prog :: outWords fs)
      (some nums.length :: (nums.map some ++ rest)) = .error .ub) := by
  have hlt : ∀ x ∈ nums, x < 4294967296 := fun x hx => by have := hv.2.2 x hx; omega
  have hlen : nums.length < 4294967296 := by
    have := sorted_length_le' hv.2.1 hv.2.2
    omega
  obtain ⟨st, bytes, hb, -⟩ := stored_total dbg hv
  rw [example_program_eq, C53_input hlen hlt, ok_bind, hb, ok_bind]
  simp only [hp, ok_bind]
  cases fs.getLast? with
  | some name =>
    exact C45_example_file hv hb (hpl (some name) _).1 (hpl (some name) _).2
  | none => exact C45_example hv hb (hpl none _).1 (hpl none _).2

/-- C53: if fewer numbers follow than announced, the repeated last number makes the builder throw. -/
theorem C53_short_throws {prog : String} {fs : List String} {nums : List Nat} {k : Nat} (hk : 0 < k)
    (hne : nums ≠ []) (hs : nums.Pairwise (· ≤ ·)) (hb : ∀ x ∈ nums, x < 4294901760)
    (hn : nums.length + k < 4294967296) :
    example_program dbg print place (prog :: outWords fs) (some (nums.length + k) :: nums.map some)
      = .error .exc := by
  obtain ⟨pre, last, rfl⟩ : ∃ pre last, nums = pre ++ [last] :=
    ⟨nums.dropLast, nums.getLast hne, (List.dropLast_concat_getLast hne).symm⟩
  rw [List.pairwise_append] at hs
  have hle : ∀ x ∈ pre ++ [last], x ≤ last := by
    intro x hx
    rcases List.mem_append.mp hx with hx | hx
    · exact hs.2.2 x hx last List.mem_cons_self
    · rw [List.mem_singleton] at hx; omega
  rw [example_program_eq, C53_short_input (last := last) (by simp) hn
    (fun x hx => by have := hb x hx; omega), ok_bind, C16_duplicate_throws]
  · rfl
  · rw [List.pairwise_append]
    refine ⟨List.pairwise_append.mpr hs, List.pairwise_replicate.mpr (Or.inr (Nat.le_refl _)), ?_⟩
    intro x hx y hy
    rw [List.eq_of_mem_replicate hy]
    exact hle x hx
  · intro x hx
    rcases List.mem_append.mp hx with hx | hx
    · exact hb x hx
    · rw [List.eq_of_mem_replicate hx]
      exact hb last (by simp)
  · intro h
    rw [List.pairwise_append] at h
    have := h.2.2 last (by simp) last (List.mem_replicate.mpr ⟨by omega, rfl⟩)
    omega

/-- C53: an announced length of 0 makes the builder read before the (empty) array. -/
theorem C53_zero {prog : String} {fs : List String} (rest : List (Option Nat)) :
    example_program dbg print place (prog :: outWords fs) (some 0 :: rest) = .error .ub := by
  rw [example_program_eq, example_input_eq (by omega)]
  simp only [example_fill, ok_bind]
  rw [C17_empty_ub]
  rfl

/-- C53: with the statistics printed as they are, the program is undefined on every list with all
elements below 255 · 65536 (C46). -/
theorem C53_print {prog : String} {fs : List String} {nums : List Nat} {log : Nat → Nat → Nat}
    (hv : Valid nums) (hlt : ∀ x ∈ nums, x < 16711680) (rest : List (Option Nat)) :
    example_program dbg (fun st => do let _ ← st.print log) place (prog :: outWords fs)
      (some nums.length :: (nums.map some ++ rest)) = .error .ub := by
  have hlen : nums.length < 4294967296 := by
    have := sorted_length_le' hv.2.1 hv.2.2
    omega
  obtain ⟨st, bytes, hb, -⟩ := stored_total dbg hv
  rw [example_program_eq, C53_input hlen (fun x hx => by have := hlt x hx; omega), ok_bind, hb, ok_bind]
  simp only
  rw [C46_few_slices hv hlt hb]
  rfl

/-- The hypotheses can be met: the bytes in a memory of their own, followed by 31 more. -/
example : example_program true (fun _ => .ok ()) (fun _ bytes => (memOf 64 bytes 31, 64))
    ("./example" :: outWords ["a.bin", "out.bin"]) (some 1 :: ([4].map some ++ [none])) = .error .ub ∧
    example_program true (fun _ => .ok ()) (fun _ bytes => (memOf 64 bytes 31, 64)) ["./example"]
      [some 4, some 3, some 5, some 300] = .error .exc ∧
    example_program true (fun _ => .ok ()) (fun _ bytes => (memOf 64 bytes 31, 64)) ["./example", "-h"]
      [] = .ok 1 := by
  have hv : Valid [4] := ⟨by decide, by decide, by decide⟩
  refine ⟨?_, ?_, ?_⟩
  · refine (C53_program hv [none] (fun _ => rfl)
      (fun f bytes => ⟨loaded_memOf _ _ _, readable_memOf _ _ _⟩)).2 ?_
    rintro ⟨-, hr⟩
    have := hr 0 0 (by omega) (by omega) (by decide +kernel) (by decide) (by decide)
    revert this
    decide
  · exact C53_short_throws (fs := []) (nums := [3, 5, 300]) (k := 1) (by omega) (by decide) (by decide)
      (by decide) (by decide)
  · exact C53_unknown_option (fs := []) (rest := []) (by decide) []

/-- and it succeeds on the numbers 0 to 39 -/
example : example_program true (fun _ => .ok ()) (fun _ bytes => (memOf 64 bytes 31, 64))
    ("./example" :: outWords ["out.bin"])
    (some (List.range 40).length :: ((List.range 40).map some ++ [])) = .ok 0 := by
  have hv : Valid (List.range 40) := ⟨by decide, by decide, by decide⟩
  refine (C53_program hv [] (fun _ => rfl)
    (fun f bytes => ⟨loaded_memOf _ _ _, readable_memOf _ _ _⟩)).1 ⟨by decide, ?_⟩
  intro i b _ _ _ h1 h2
  have h0 : 256 * i + b = 0 := by
    unfold blockCard at h1
    obtain ⟨x, hx⟩ := List.exists_mem_of_length_pos h1
    simp at hx
    omega
  rw [h0] at h2
  exact absurd h2 (by decide)

end Sliced
