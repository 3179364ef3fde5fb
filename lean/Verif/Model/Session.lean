import Verif.Model.Generators
import Verif.Model.Text
import Verif.Model.Main
/-!
# The remaining `main` functions, and files

What the programs leave on the disk and read from it, so that the commands of the README can be run one
after the other.  Opening a file for writing is taken to succeed; opening a file that does not exist for
reading ends the program with an exception (`mm::file_source`, external).
-/
namespace Sliced

/-- the bytes of a file to which 32-bit words are written (building_util.hpp:29-32 and
`out.write(begin, n * sizeof(uint32_t))`, gen_clustered_data.cpp:102-104) -/
def fileBytes (ws : List Nat) : List UInt8 := ws.flatMap le32

/-- the bytes of a file to which characters are written -/
def textBytes (cs : List Char) : List UInt8 := cs.map (fun c => UInt8.ofNat c.toNat)

/-- the characters of a file that is the standard input of a program -/
def textOf (bs : List UInt8) : List Char := bs.map (fun b => Char.ofNat b.toNat)

/-- `mm::file_source<uint32_t>`: the words of a file (builder.hpp:228); up to three bytes behind the last word
are not seen -/
def fileWords : List UInt8 → List Nat
  | b0 :: b1 :: b2 :: b3 :: bs =>
    (b0.toNat + 256 * b1.toNat + 65536 * (b2.toNat + 256 * b3.toNat)) :: fileWords bs
  | _ => []

/-- the files, by name -/
abbrev Disk := String → Option (List UInt8)

/-- a file is written -/
def Disk.write (d : Disk) (name : String) (bytes : List UInt8) : Disk :=
  fun n => if n = name then some bytes else d n

/-- the file that a program writes, if it does -/
def Disk.put (d : Disk) : Option (String × List UInt8) → Disk
  | some (name, bytes) => d.write name bytes
  | none => d

/-- a file is opened for reading -/
def Disk.read (d : Disk) (name : String) : Res (List UInt8) :=
  match d name with
  | some bytes => .ok bytes
  | none => .error .exc

/-- a collection is opened (builder.hpp:228, test_decode.cpp:16) -/
def Disk.words (d : Disk) (name : String) : Res (List Nat) := do
  let bytes ← d.read name
  return fileWords bytes

/-- gen_clustered_data.cpp:113-133; `none`: only the usage is printed.  Otherwise the name and the contents
of the file that is written. -/
def gen_clustered_main (conv : Bool → Nat → Res Nat) (sort rest : List Nat → List Nat)
    (code : Nat → Nat → Nat) (some_of : Nat → Nat → List Nat) (fuel : Nat) (argv : List String) :
    Res (Option (String × List UInt8)) :=
  match argv with
  | _ :: num :: univ :: file :: opts => do
    let num_lists ← atoi conv num.toList
    let univ ← atoi conv univ.toList
    if "--binary" ∈ opts then do
      let ws ← gen_clustered sort num_lists univ code some_of fuel
      return some (file, fileBytes ws)
    else do
      let ns ← gen_clustered_text sort rest num_lists univ code some_of fuel
      return some (file, textBytes (lines ns))
  | _ => .ok none

/-- gen_uniform_data.cpp:36-54.  `length lo hi i` is the number of elements drawn for list `i`, between `lo`
and `hi`; `element univ i k` the `k`-th of them. -/
def gen_uniform_main (conv : Bool → Nat → Res Nat) (sort : List Nat → List Nat)
    (length : Nat → Nat → Nat → Nat) (element : Nat → Nat → Nat → Nat) (argv : List String) :
    Res (Option (String × List UInt8)) :=
  match argv with
  | _ :: num :: lo :: hi :: univ :: file :: _ => do
    let num_lists ← atoi conv num.toList
    let min_length ← atoi conv lo.toList
    let max_length ← atoi conv hi.toList
    let univ ← atoi conv univ.toList
    return some (file, fileBytes (gen_uniform sort num_lists univ (length min_length max_length)
      (element univ)))
  | _ => .ok none

/-- decode.cpp:37-46, cardinality.cpp:33-42, uncompress.cpp:41-50: `run` is what is done with the file named
by the first argument; `none`: only the usage is printed -/
def index_main {α : Type} (run : String → Res α) (argv : List String) : Res (Option α) :=
  match argv with
  | _ :: file :: _ => do
    let r ← run file
    return some r
  | _ => .ok none

end Sliced
