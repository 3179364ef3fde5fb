import Verif.Model.Main
import Verif.Proof.Basic
/-!
# C51: command-line options
-/
namespace Sliced

variable {D : Type}

/-- How the words after the mandatory arguments are read: an option takes the next word as its value,
whatever it is; a word that is not an option is skipped.  `ps` are the options given, in order. -/
inductive Reads (opts : List String) : List String → List (String × String) → Prop
  | nil : Reads opts [] []
  | skip {w : String} {ws : List String} {ps : List (String × String)} :
      w ∉ opts → Reads opts ws ps → Reads opts (w :: ws) ps
  | opt {w v : String} {ws : List String} {ps : List (String × String)} :
      w ∈ opts → Reads opts ws ps → Reads opts (w :: v :: ws) ((w, v) :: ps)

/-- the value of the last occurrence of an option -/
def lastValue (k : String) (ps : List (String × String)) : Option String :=
  ((ps.filter (fun p => p.1 = k)).getLast?).map Prod.snd

/-- Every command line is of one of two kinds: it can be read to the end, or its last word is an option
that lacks its value. -/
theorem reads_total (opts : List String) (n : Nat) : ∀ ws : List String, ws.length ≤ n →
    (∃ ps, Reads opts ws ps) ∨ ∃ ws' w ps, ws = ws' ++ [w] ∧ w ∈ opts ∧ Reads opts ws' ps := by
  induction n with
  | zero =>
    intro ws h
    have : ws = [] := List.length_eq_zero_iff.mp (by omega)
    subst this
    exact Or.inl ⟨[], .nil⟩
  | succ n ih =>
    intro ws h
    match ws with
    | [] => exact Or.inl ⟨[], .nil⟩
    | w :: ws =>
      simp only [List.length_cons] at h
      by_cases hw : w ∈ opts
      · match ws with
        | [] => exact Or.inr ⟨[], w, [], rfl, hw, .nil⟩
        | v :: ws =>
          simp only [List.length_cons] at h
          rcases ih ws (by omega) with ⟨ps, hp⟩ | ⟨ws', w', ps, rfl, h2, h3⟩
          · exact Or.inl ⟨_, .opt hw hp⟩
          · exact Or.inr ⟨w :: v :: ws', w', _, rfl, h2, .opt hw h3⟩
      · rcases ih ws (by omega) with ⟨ps, hp⟩ | ⟨ws', w', ps, rfl, h2, h3⟩
        · exact Or.inl ⟨_, .skip hw hp⟩
        · exact Or.inr ⟨w :: ws', w', _, rfl, h2, .skip hw h3⟩

theorem argAt_drop {argv ws : List String} {i : Nat} {w : String} (h : argv.drop i = w :: ws) :
    argAt argv i = .ok (some w) ∧ i < argv.length ∧ argv.drop (i + 1) = ws := by
  have hi : i < argv.length := by
    have := congrArg List.length h
    simp only [List.length_drop, List.length_cons] at this
    omega
  rw [List.drop_eq_getElem_cons hi] at h
  simp only [List.cons.injEq] at h
  refine ⟨?_, hi, h.2⟩
  unfold argAt
  rw [if_pos hi, List.getElem?_eq_getElem hi, h.1]

/-- the effect of one option, on the way through the command line -/
def setOpt (cv : Conv D) (o : Opts D) (p : String × String) : Res (Opts D) :=
  if p.1 = "--density" then do return { o with density := ← cv.stod p.2 }
  else if p.1 = "--size" then do return { o with size := ← cv.atoi p.2 }
  else .ok { o with out := some p.2 }

theorem build_args_reads {cv : Conv D} {argv ws tail : List String}
    {ps : List (String × String)} (hw : Reads ["--density", "--size", "--out"] ws ps) :
    ∃ n, n ≤ ws.length ∧ ∀ k i o, argv.drop i = ws ++ tail → build_args cv argv (k + n) i o
        = ps.foldlM (setOpt cv) o >>= build_args cv argv k (i + ws.length) := by
  induction hw with
  | nil => exact ⟨0, Nat.le_refl _, fun _ _ _ _ => rfl⟩
  | @skip w ws ps hn _ ih =>
    obtain ⟨n, hn', ih⟩ := ih
    refine ⟨n + 1, by simp only [List.length_cons]; omega, fun k i o hd => ?_⟩
    obtain ⟨h1, h2, h3⟩ := argAt_drop hd
    simp only [List.mem_cons, List.not_mem_nil, or_false, not_or] at hn
    rw [← Nat.add_assoc]
    unfold build_args
    rw [if_neg (Nat.ne_of_lt h2), h1, ok_bind]
    simp only [cstr, ok_bind]
    rw [if_neg hn.1, if_neg hn.2.1, if_neg hn.2.2, ih k (i + 1) o h3, List.length_cons,
      show i + (ws.length + 1) = i + 1 + ws.length by omega]
  | @opt w v ws ps hm _ ih =>
    obtain ⟨n, hn', ih⟩ := ih
    refine ⟨n + 1, by simp only [List.length_cons]; omega, fun k i o hd => ?_⟩
    obtain ⟨h1, h2, h3⟩ := argAt_drop hd
    obtain ⟨h4, h5, h6⟩ := argAt_drop h3
    rw [← Nat.add_assoc]
    unfold build_args
    rw [if_neg (Nat.ne_of_lt h2), h1, ok_bind]
    simp only [cstr, ok_bind, h4]
    rw [show i + (w :: v :: ws).length = i + 2 + ws.length by simp only [List.length_cons]; omega]
    simp only [List.foldlM_cons, setOpt]
    simp only [List.mem_cons, List.not_mem_nil, or_false] at hm
    rcases hm with rfl | rfl | rfl
    · rw [if_pos rfl, if_pos rfl]
      cases cv.stod v with
      | error e => rfl
      | ok d => exact ih k (i + 2) _ h6
    · rw [if_neg (by decide), if_pos rfl, if_neg (by decide), if_pos rfl]
      cases cv.atoi v with
      | error e => rfl
      | ok d => exact ih k (i + 2) _ h6
    · rw [if_neg (by decide), if_neg (by decide), if_pos rfl, if_neg (by decide), if_neg (by decide)]
      exact ih k (i + 2) _ h6

theorem test_args_reads {cv : Conv D} {argv ws tail : List String}
    {ps : List (String × String)} (hw : Reads ["--density", "--size"] ws ps) :
    ∃ n, n ≤ ws.length ∧ ∀ k i o, argv.drop i = ws ++ tail → test_args cv argv (k + n) i o
        = ps.foldlM (setOpt cv) o >>= test_args cv argv k (i + ws.length) := by
  induction hw with
  | nil => exact ⟨0, Nat.le_refl _, fun _ _ _ _ => rfl⟩
  | @skip w ws ps hn _ ih =>
    obtain ⟨n, hn', ih⟩ := ih
    refine ⟨n + 1, by simp only [List.length_cons]; omega, fun k i o hd => ?_⟩
    obtain ⟨h1, h2, h3⟩ := argAt_drop hd
    simp only [List.mem_cons, List.not_mem_nil, or_false, not_or] at hn
    rw [← Nat.add_assoc]
    unfold test_args
    rw [if_neg (Nat.ne_of_lt h2), h1, ok_bind]
    simp only [cstr, ok_bind]
    rw [if_neg hn.1, if_neg hn.2, ih k (i + 1) o h3, List.length_cons,
      show i + (ws.length + 1) = i + 1 + ws.length by omega]
  | @opt w v ws ps hm _ ih =>
    obtain ⟨n, hn', ih⟩ := ih
    refine ⟨n + 1, by simp only [List.length_cons]; omega, fun k i o hd => ?_⟩
    obtain ⟨h1, h2, h3⟩ := argAt_drop hd
    obtain ⟨h4, h5, h6⟩ := argAt_drop h3
    rw [← Nat.add_assoc]
    unfold test_args
    rw [if_neg (Nat.ne_of_lt h2), h1, ok_bind]
    simp only [cstr, ok_bind, h4]
    rw [show i + (w :: v :: ws).length = i + 2 + ws.length by simp only [List.length_cons]; omega]
    simp only [List.foldlM_cons, setOpt]
    simp only [List.mem_cons, List.not_mem_nil, or_false] at hm
    rcases hm with rfl | rfl
    · rw [if_pos rfl, if_pos rfl]
      cases cv.stod v with
      | error e => rfl
      | ok d => exact ih k (i + 2) _ h6
    · rw [if_neg (by decide), if_pos rfl, if_neg (by decide), if_pos rfl]
      cases cv.atoi v with
      | error e => rfl
      | ok d => exact ih k (i + 2) _ h6

theorem lastValue_cons (k k' v : String) (ps : List (String × String)) :
    lastValue k ((k', v) :: ps) = (lastValue k ps).or (if k' = k then some v else none) := by
  unfold lastValue
  by_cases h : k' = k
  · rw [List.filter_cons_of_pos (by simpa using h), if_pos h]
    cases hl : ps.filter (fun p => p.1 = k) with
    | nil => rfl
    | cons q qs =>
      rw [List.getLast?_cons_cons]
      cases hg : (q :: qs).getLast? with
      | none => simp at hg
      | some r => rfl
  · rw [List.filter_cons_of_neg (by simpa using h), if_neg h, Option.or_none]

theorem setOpt_density (cv : Conv D) (o : Opts D) {v : String} {d : D} (h : cv.stod v = .ok d) :
    setOpt cv o ("--density", v) = .ok { o with density := d } := by
  unfold setOpt
  simp only [h, if_true]
  rfl

theorem setOpt_size (cv : Conv D) (o : Opts D) {v : String} {n : Nat} (h : cv.atoi v = .ok n) :
    setOpt cv o ("--size", v) = .ok { o with size := n } := by
  unfold setOpt
  rw [if_neg (by simp only; decide)]
  simp only [h, if_true]
  rfl

theorem setOpt_out (cv : Conv D) (o : Opts D) (v : String) :
    setOpt cv o ("--out", v) = .ok { o with out := some v } := by
  unfold setOpt
  rw [if_neg (by simp only; decide), if_neg (by simp only; decide)]

/-- The options given can be converted. -/
def Converts (cv : Conv D) (ps : List (String × String)) : Prop :=
  ∀ p ∈ ps, (p.1 = "--density" → ∃ d, cv.stod p.2 = .ok d) ∧
    (p.1 = "--size" → ∃ n, cv.atoi p.2 = .ok n)

/-- `o` is what the options `ps` set, with the values of `o₀` for options that are not given. -/
structure SetBy (cv : Conv D) (ps : List (String × String)) (o₀ o : Opts D) : Prop where
  density : ∀ v, lastValue "--density" ps = some v → cv.stod v = .ok o.density
  density_default : lastValue "--density" ps = none → o.density = o₀.density
  size : ∀ v, lastValue "--size" ps = some v → cv.atoi v = .ok o.size
  size_default : lastValue "--size" ps = none → o.size = o₀.size

theorem foldlM_setOpt {cv : Conv D} {O : List String} (hO : ∀ k ∈ O, k = "--density" ∨ k = "--size" ∨ k = "--out")
    (ps : List (String × String)) (hk : ∀ p ∈ ps, p.1 ∈ O) (hc : Converts cv ps) :
    ∀ o₀, ∃ o, ps.foldlM (setOpt cv) o₀ = .ok o ∧ SetBy cv ps o₀ o ∧
      o.out = (lastValue "--out" ps).or o₀.out := by
  induction ps with
  | nil =>
    intro o₀
    exact ⟨o₀, rfl, ⟨(fun v h => by cases h), (fun _ => rfl), (fun v h => by cases h), (fun _ => rfl)⟩, rfl⟩
  | cons p ps ih =>
    intro o₀
    have ih := ih (fun q hq => hk q (List.mem_cons_of_mem _ hq))
      (fun q hq => hc q (List.mem_cons_of_mem _ hq))
    obtain ⟨k, v⟩ := p
    rw [List.foldlM_cons]
    obtain ⟨c1, c2⟩ := hc (k, v) List.mem_cons_self
    rcases hO _ (hk (k, v) List.mem_cons_self) with rfl | rfl | rfl
    · obtain ⟨d, hd⟩ := c1 rfl
      simp only at hd
      obtain ⟨o, h1, h2, h3⟩ := ih { o₀ with density := d }
      refine ⟨o, ?_, ⟨?_, ?_, ?_, ?_⟩, ?_⟩
      · rw [setOpt_density cv o₀ hd]
        exact h1
      · intro w hw
        rw [lastValue_cons, if_pos rfl] at hw
        cases hl : lastValue "--density" ps with
        | some u => rw [hl] at hw; cases hw; exact h2.density _ hl
        | none => rw [hl] at hw; cases hw; rw [h2.density_default hl]; exact hd
      · intro hw
        rw [lastValue_cons, if_pos rfl] at hw
        cases hl : lastValue "--density" ps with
        | some u => rw [hl] at hw; cases hw
        | none => rw [hl] at hw; cases hw
      · intro w hw
        rw [lastValue_cons, if_neg (by decide), Option.or_none] at hw
        exact h2.size w hw
      · intro hw
        rw [lastValue_cons, if_neg (by decide), Option.or_none] at hw
        exact h2.size_default hw
      · rw [h3, lastValue_cons, if_neg (by decide), Option.or_none]
    · obtain ⟨d, hd⟩ := c2 rfl
      simp only at hd
      obtain ⟨o, h1, h2, h3⟩ := ih { o₀ with size := d }
      refine ⟨o, ?_, ⟨?_, ?_, ?_, ?_⟩, ?_⟩
      · rw [setOpt_size cv o₀ hd]
        exact h1
      · intro w hw
        rw [lastValue_cons, if_neg (by decide), Option.or_none] at hw
        exact h2.density w hw
      · intro hw
        rw [lastValue_cons, if_neg (by decide), Option.or_none] at hw
        exact h2.density_default hw
      · intro w hw
        rw [lastValue_cons, if_pos rfl] at hw
        cases hl : lastValue "--size" ps with
        | some u => rw [hl] at hw; cases hw; exact h2.size _ hl
        | none => rw [hl] at hw; cases hw; rw [h2.size_default hl]; exact hd
      · intro hw
        rw [lastValue_cons, if_pos rfl] at hw
        cases hl : lastValue "--size" ps with
        | some u => rw [hl] at hw; cases hw
        | none => rw [hl] at hw; cases hw
      · rw [h3, lastValue_cons, if_neg (by decide), Option.or_none]
    · obtain ⟨o, h1, h2, h3⟩ := ih { o₀ with out := some v }
      refine ⟨o, ?_, ⟨?_, ?_, ?_, ?_⟩, ?_⟩
      · rw [setOpt_out]
        exact h1
      · intro w hw
        rw [lastValue_cons, if_neg (by decide), Option.or_none] at hw
        exact h2.density w hw
      · intro hw
        rw [lastValue_cons, if_neg (by decide), Option.or_none] at hw
        exact h2.density_default hw
      · intro w hw
        rw [lastValue_cons, if_neg (by decide), Option.or_none] at hw
        exact h2.size w hw
      · intro hw
        rw [lastValue_cons, if_neg (by decide), Option.or_none] at hw
        exact h2.size_default hw
      · rw [h3, lastValue_cons, if_pos rfl]
        cases lastValue "--out" ps with
        | some u => rfl
        | none => rfl

theorem Reads.keys {opts ws : List String} {ps : List (String × String)} (h : Reads opts ws ps) :
    ∀ p ∈ ps, p.1 ∈ opts := by
  induction h with
  | nil => intro p hp; cases hp
  | skip _ _ ih => exact ih
  | opt hm _ ih =>
    intro p hp
    rcases List.mem_cons.mp hp with rfl | hp
    · exact hm
    · exact ih p hp

/-- C51: the options of `build`.  The last occurrence of an option counts, options that are not given
keep their default, and words that are not options are ignored. -/
theorem C51_build_options {cv : Conv D} {prog coll : String} {ws : List String}
    {ps : List (String × String)} (hw : Reads ["--density", "--size", "--out"] ws ps)
    (hc : Converts cv ps) (o₀ : Opts D) :
    ∃ o, build_args cv (prog :: coll :: ws) (prog :: coll :: ws).length 2 o₀ = .ok o ∧
      SetBy cv ps o₀ o ∧ o.out = (lastValue "--out" ps).or o₀.out := by
  obtain ⟨o, h1, h2, h3⟩ := foldlM_setOpt (by simp) ps hw.keys hc o₀
  refine ⟨o, ?_, h2, h3⟩
  obtain ⟨n, hn, h4⟩ := build_args_reads (cv := cv) (argv := prog :: coll :: ws) (tail := []) hw
  have h5 := h4 (ws.length - n + 2) 2 o₀ (by simp)
  rw [show ws.length - n + 2 + n = (prog :: coll :: ws).length by
    simp only [List.length_cons]; omega] at h5
  rw [h5, h1, ok_bind]
  unfold build_args
  rw [if_pos (by simp only [List.length_cons]; omega)]

/-- C51: the options of the test programs. -/
theorem C51_test_options {cv : Conv D} {prog idx coll : String} {ws : List String}
    {ps : List (String × String)} (hw : Reads ["--density", "--size"] ws ps)
    (hc : Converts cv ps) (o₀ : Opts D) :
    ∃ o, test_args cv (prog :: idx :: coll :: ws) (prog :: idx :: coll :: ws).length 3 o₀ = .ok o ∧
      SetBy cv ps o₀ o := by
  obtain ⟨o, h1, h2, -⟩ := foldlM_setOpt (by simp) ps hw.keys hc o₀
  refine ⟨o, ?_, h2⟩
  obtain ⟨n, hn, h4⟩ := test_args_reads (cv := cv) (argv := prog :: idx :: coll :: ws) (tail := []) hw
  have h5 := h4 (ws.length - n + 3) 3 o₀ (by simp)
  rw [show ws.length - n + 3 + n = (prog :: idx :: coll :: ws).length by
    simp only [List.length_cons]; omega] at h5
  rw [h5, h1, ok_bind]
  unfold test_args
  rw [if_pos (by simp only [List.length_cons]; omega)]

/-- C51: a value that `std::stod` rejects ends `build` with its exception, if all that precedes it can
be converted. -/
theorem C51_build_bad_number {cv : Conv D} {prog coll : String} {ws : List String}
    {ps qs : List (String × String)} {v : String} {e : Err}
    (hw : Reads ["--density", "--size", "--out"] ws (ps ++ ("--density", v) :: qs))
    (hc : Converts cv ps) (hv : cv.stod v = .error e) (o₀ : Opts D) :
    build_args cv (prog :: coll :: ws) (prog :: coll :: ws).length 2 o₀ = .error e := by
  obtain ⟨o, h1, -, -⟩ := foldlM_setOpt (O := ["--density", "--size", "--out"]) (by simp) ps
    (fun p hp => hw.keys p (List.mem_append_left _ hp)) hc o₀
  obtain ⟨n, hn, h4⟩ := build_args_reads (cv := cv) (argv := prog :: coll :: ws) (tail := []) hw
  have h5 := h4 (ws.length - n + 2) 2 o₀ (by simp)
  rw [show ws.length - n + 2 + n = (prog :: coll :: ws).length by
    simp only [List.length_cons]; omega] at h5
  rw [h5, List.foldlM_append, h1, ok_bind, List.foldlM_cons]
  unfold setOpt
  simp only [hv, if_true]
  rfl

theorem argAt_end (argv : List String) : argAt argv argv.length = .ok none := by
  unfold argAt
  rw [if_neg (Nat.lt_irrefl _), if_pos rfl]

/-- C51: an option without a value at the end of the command line is undefined in `build`: either the
null pointer behind the arguments is converted, or (for `--out`) the loop runs past it. -/
theorem C51_build_missing_value {cv : Conv D} {prog coll w : String} {ws : List String}
    {ps : List (String × String)} (hw : Reads ["--density", "--size", "--out"] ws ps)
    (hc : Converts cv ps) (hm : w ∈ ["--density", "--size", "--out"]) (o₀ : Opts D) :
    build_args cv (prog :: coll :: (ws ++ [w])) (prog :: coll :: (ws ++ [w])).length 2 o₀
      = .error .ub := by
  obtain ⟨o, h1, -, -⟩ := foldlM_setOpt (by simp) ps hw.keys hc o₀
  obtain ⟨n, hn, h4⟩ := build_args_reads (cv := cv) (argv := prog :: coll :: (ws ++ [w]))
    (tail := [w]) hw
  have h5 := h4 (ws.length - n + 3) 2 o₀ (by simp)
  rw [show ws.length - n + 3 + n = (prog :: coll :: (ws ++ [w])).length by
    simp only [List.length_cons, List.length_append, List.length_nil]; omega] at h5
  have hlen : (prog :: coll :: (ws ++ [w])).length = 2 + ws.length + 1 := by
    simp only [List.length_cons, List.length_append, List.length_nil]; omega
  have hd : (prog :: coll :: (ws ++ [w])).drop (2 + ws.length) = [w] := by
    rw [Nat.add_comm, List.drop_succ_cons, List.drop_succ_cons, List.drop_left]
  obtain ⟨g1, g2, -⟩ := argAt_drop hd
  have g3 := argAt_end (prog :: coll :: (ws ++ [w]))
  rw [hlen] at g3
  rw [h5, h1, ok_bind]
  generalize hargv : prog :: coll :: (ws ++ [w]) = argv at *
  unfold build_args
  rw [if_neg (Nat.ne_of_lt g2), g1, ok_bind]
  simp only [cstr, ok_bind, g3]
  simp only [List.mem_cons, List.not_mem_nil, or_false] at hm
  rcases hm with rfl | rfl | rfl
  · rw [if_pos rfl]; rfl
  · rw [if_neg (by decide), if_pos rfl]; rfl
  · rw [if_neg (by decide), if_neg (by decide), if_pos rfl]
    unfold build_args
    rw [if_neg (by omega)]
    unfold argAt
    rw [if_neg (by omega), if_neg (by omega)]
    rfl

/-- C51: the same for the test programs. -/
theorem C51_test_missing_value {cv : Conv D} {prog idx coll w : String} {ws : List String}
    {ps : List (String × String)} (hw : Reads ["--density", "--size"] ws ps)
    (hc : Converts cv ps) (hm : w ∈ ["--density", "--size"]) (o₀ : Opts D) :
    test_args cv (prog :: idx :: coll :: (ws ++ [w])) (prog :: idx :: coll :: (ws ++ [w])).length 3 o₀
      = .error .ub := by
  obtain ⟨o, h1, -, -⟩ := foldlM_setOpt (by simp) ps hw.keys hc o₀
  obtain ⟨n, hn, h4⟩ := test_args_reads (cv := cv) (argv := prog :: idx :: coll :: (ws ++ [w]))
    (tail := [w]) hw
  have h5 := h4 (ws.length - n + 4) 3 o₀ (by simp)
  rw [show ws.length - n + 4 + n = (prog :: idx :: coll :: (ws ++ [w])).length by
    simp only [List.length_cons, List.length_append, List.length_nil]; omega] at h5
  have hlen : (prog :: idx :: coll :: (ws ++ [w])).length = 3 + ws.length + 1 := by
    simp only [List.length_cons, List.length_append, List.length_nil]; omega
  have hd : (prog :: idx :: coll :: (ws ++ [w])).drop (3 + ws.length) = [w] := by
    rw [Nat.add_comm, List.drop_succ_cons, List.drop_succ_cons, List.drop_succ_cons, List.drop_left]
  obtain ⟨g1, g2, -⟩ := argAt_drop hd
  have g3 := argAt_end (prog :: idx :: coll :: (ws ++ [w]))
  rw [hlen] at g3
  rw [h5, h1, ok_bind]
  generalize hargv : prog :: idx :: coll :: (ws ++ [w]) = argv at *
  unfold test_args
  rw [if_neg (Nat.ne_of_lt g2), g1, ok_bind]
  simp only [cstr, ok_bind, g3]
  simp only [List.mem_cons, List.not_mem_nil, or_false] at hm
  rcases hm with rfl | rfl
  · rw [if_pos rfl]; rfl
  · rw [if_neg (by decide), if_pos rfl]; rfl

/-- The two kinds of command lines of `C51_build_options` and `C51_build_missing_value` are all there
are. -/
theorem C51_exhaustive (opts ws : List String) :
    (∃ ps, Reads opts ws ps) ∨ ∃ ws' w ps, ws = ws' ++ [w] ∧ w ∈ opts ∧ Reads opts ws' ps :=
  reads_total opts ws.length ws (Nat.le_refl _)

/-- The command line of the README: the last value counts, and a value may look like an option. -/
example : Reads ["--density", "--size", "--out"]
    ["--density", "0.01", "x", "--out", "a", "--out", "--size"]
    [("--density", "0.01"), ("--out", "a"), ("--out", "--size")] :=
  .opt (by decide) (.skip (by decide) (.opt (by decide) (.opt (by decide) .nil)))

/-- `build c x --size 7 --size` : the last option has no value -/
example (cv : Conv Nat) (h : cv.atoi "7" = .ok 7) (o₀ : Opts Nat) :
    build_args cv ("build" :: "c" :: (["x", "--size", "7"] ++ ["--size"])) 6 2 o₀ = .error .ub :=
  C51_build_missing_value (ps := [("--size", "7")]) (.skip (by decide) (.opt (by decide) .nil))
    (by simp [Converts, h]) (by decide) o₀

end Sliced
