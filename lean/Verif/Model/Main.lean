import Verif.Model.Index
import Verif.Model.Tools
/-!
# The `main` functions with options: src/build.cpp, src/example.cpp and the `TEST` macro

The arguments `argv[0], …, argv[argc-1]` are a list of strings.  `argv[argc]` is a null pointer, and
nothing behind it may be read.  The library conversions (`std::stod` throws on text that is not a
number, `std::atoi` does not) are parameters; the result of `atoi` is taken as converted to
`uint32_t`.  The type `D` of `double` values is a parameter as well.
-/
namespace Sliced

variable {D : Type}

/-- `argv[i]`; `none` is the null pointer -/
def argAt (argv : List String) (i : Nat) : Res (Option String) :=
  if i < argv.length then .ok argv[i]? else if i = argv.length then .ok none else .error .ub

/-- A `char const*` handed to `std::string`, `std::stod`, `std::atoi` or `operator<<` must not be null. -/
def cstr : Option String → Res String
  | some s => .ok s
  | none => .error .ub

/-- the conversions of the standard library -/
structure Conv (D : Type) where
  stod : String → Res D
  atoi : String → Res Nat

/-- what the options set: `params.density`, `params.size` and `output_filename` -/
structure Opts (D : Type) where
  density : D
  size : Nat
  out : Option String

/-- build.cpp:34-46, the loop over the options.  Each iteration advances `i`, which is never above
`argc + 1`, so `argc` iterations suffice. -/
def build_args (cv : Conv D) (argv : List String) : (fuel i : Nat) → Opts D → Res (Opts D)
  | 0, _, _ => .error .diverge
  | f + 1, i, o =>
    if i = argv.length then .ok o
    else do
      let a ← argAt argv i
      let a ← cstr a
      if a = "--density" then do
        let v ← argAt argv (i + 1)
        let v ← cstr v
        let d ← cv.stod v
        build_args cv argv f (i + 2) { o with density := d }
      else if a = "--size" then do
        let v ← argAt argv (i + 1)
        let v ← cstr v
        let n ← cv.atoi v
        build_args cv argv f (i + 2) { o with size := n }
      else if a = "--out" then do
        let v ← argAt argv (i + 1)
        build_args cv argv f (i + 2) { o with out := v }
      else build_args cv argv f (i + 1) o

/-- build.cpp:9-52.  `minus_one` is the default density, `denser` the test against a density
(util.hpp:78), `print` stands for `stats.print()`, `read` maps a file.  Returns the exit code and the
file that is written, if any: its name and its contents. -/
def build_main (dbg : Bool) (cv : Conv D) (minus_one : D) (denser : D → Option (Nat → Nat → Bool))
    (print : Stats → Res Unit) (read : String → Res (List Nat)) (argv : List String) :
    Res (Nat × Option (String × List UInt8)) :=
  if argv.length < 2 then do
    let a ← argAt argv 0
    let _ ← cstr a
    return (1, none)
  else do
    let collection ← argAt argv 1
    let collection ← cstr collection
    let o ← build_args cv argv argv.length 2 { density := minus_one, size := 0, out := none }
    let data ← read collection
    let (offs, seqs, st) ← build_index dbg { denser := denser o.density, size := o.size } data
    print st
    match o.out with
    | some name => return (0, some (name, save_index offs seqs))
    | none => return (0, none)

/-- test_common.hpp:39-47, the loop over the options of the test programs -/
def test_args (cv : Conv D) (argv : List String) : (fuel i : Nat) → Opts D → Res (Opts D)
  | 0, _, _ => .error .diverge
  | f + 1, i, o =>
    if i = argv.length then .ok o
    else do
      let a ← argAt argv i
      let a ← cstr a
      if a = "--density" then do
        let v ← argAt argv (i + 1)
        let v ← cstr v
        let d ← cv.stod v
        test_args cv argv f (i + 2) { o with density := d }
      else if a = "--size" then do
        let v ← argAt argv (i + 1)
        let v ← cstr v
        let n ← cv.atoi v
        test_args cv argv f (i + 2) { o with size := n }
      else test_args cv argv f (i + 1) o

/-- test_common.hpp:26-49 `TEST`, with `test` for the function of the program: it gets the name of the
index file, the parameters and the collection.  `none`: only the usage is printed, the exit code is 1. -/
def test_main {α : Type} (cv : Conv D) (minus_one : D) (denser : D → Option (Nat → Nat → Bool))
    (read : String → Res (List Nat)) (test : String → Params → List Nat → Res α)
    (argv : List String) : Res (Option α) :=
  if argv.length < 3 then do
    let a ← argAt argv 0
    let _ ← cstr a
    return none
  else do
    let index ← argAt argv 1
    let index ← cstr index
    let collection ← argAt argv 2
    let collection ← cstr collection
    let o ← test_args cv argv argv.length 3 { density := minus_one, size := 0, out := none }
    let data ← read collection
    let r ← test index { denser := denser o.density, size := o.size } data
    return some r

/-- example.cpp:15-26, the loop over the options: `.inl` is the exit code of an early return -/
def example_args (argv : List String) : (fuel i : Nat) → Option String →
    Res (Nat ⊕ Option String)
  | 0, _, _ => .error .diverge
  | f + 1, i, out =>
    if i = argv.length then .ok (.inr out)
    else do
      let a ← argAt argv i
      let a ← cstr a
      if a = "-o" then do
        let v ← argAt argv (i + 1)
        example_args argv f (i + 2) v
      else return .inl 1

/-- One `std::cin >> x` into a `uint32_t` that holds `old` (undefined to read if `none`).  A token is
`some n` if it is a number (C++11: a number that does not fit stores `2^32 - 1` and sets failbit), and
`none` if it is something else (stores 0 and sets failbit).  A stream that has failed, or is at its end
already, is left alone: at the end of the input the sentry fails and `x` keeps its value.  The state is
the remaining tokens and whether the stream has failed. -/
def extract (old : Option Nat) : List (Option Nat) × Bool → Option Nat × (List (Option Nat) × Bool)
  | (ts, true) => (old, (ts, true))
  | ([], false) => (old, ([], true))
  | (none :: ts, false) => (some 0, (none :: ts, true))
  | (some n :: ts, false) =>
    if n < 4294967296 then (some n, (ts, false)) else (some 4294967295, (ts, true))

/-- example.cpp:33-36, the loop that fills `input` -/
def example_fill : (n : Nat) → (x : Option Nat) → List (Option Nat) × Bool → (input : List Nat) →
    Res (List Nat)
  | 0, _, _, input => .ok input
  | n + 1, x, ts, input =>
    match extract x ts with
    | (some y, ts) => example_fill n (some y) ts (input ++ [y])
    | (none, _) => .error .ub

/-- example.cpp:28-37: `n` and `x` are not initialised -/
def example_input (toks : List (Option Nat)) : Res (List Nat) :=
  match extract none (toks, false) with
  | (some n, ts) => example_fill n none ts []
  | (none, _) => .error .ub

/-- example.cpp:12-88.  `place` is the memory in which the sequence lies, for `none` in the heap and for
`some name` as the file of that name mapped, and the address of the first byte of the vector or of the
file. -/
def example_program (dbg : Bool) (print : Stats → Res Unit)
    (place : Option String → List UInt8 → Mem × Nat) (argv : List String)
    (toks : List (Option Nat)) : Res Nat := do
  match ← example_args argv argv.length 1 none with
  | .inl code => return code
  | .inr out =>
    let input ← example_input toks
    let (st, bytes) ← build_sequence dbg input []
    print st
    match out with
    | some name =>
      let (m, a) := place (some name) (save_sequence bytes)
      example_main dbg m (a + 8) input
    | none =>
      let (m, a) := place none bytes
      example_main dbg m a input

end Sliced
