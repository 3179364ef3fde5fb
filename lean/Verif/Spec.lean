import Verif.Model.Machine
/-!
# Specification vocabulary

Everything a property theorem needs in order to be stated, without reference to the library's
algorithms or to its data format.
-/
namespace Sliced

/-- A list the library is meant to encode: non-empty, strictly increasing, and below the last
64Ki-slice of the 32-bit universe (values in that slice are treated separately, see C02). -/
def Valid (xs : List Nat) : Prop :=
  xs ≠ [] ∧ xs.Pairwise (· < ·) ∧ ∀ x ∈ xs, x < 4294901760

/-- The bytes `bs` are in memory from address `a` on. -/
def Loaded (m : Mem) (a : Nat) (bs : List UInt8) : Prop :=
  ∀ (i : Nat) (b : UInt8), bs[i]? = some b → m (a + i) = some b

/-- The `n` bytes from address `a` on can be read (contents arbitrary). -/
def Readable (m : Mem) (a n : Nat) : Prop := ∀ i, i < n → (m (a + i)).isSome = true

/-- `out'` is `out` after writing `L` from index `p` on; the `slack` slots after that may have any
contents; everything else, and the capacity, is unchanged. -/
def Wrote (out : List Nat) (p : Nat) (L : List Nat) (slack : Nat) (out' : List Nat) : Prop :=
  out'.length = out.length ∧
  (∀ i, i < p → out'[i]? = out[i]?) ∧
  (∀ i, i < L.length → out'[p + i]? = L[i]?) ∧
  (∀ i, p + L.length + slack ≤ i → out'[i]? = out[i]?)

/-- `L` enumerates the set `P` in strictly increasing order. -/
def Enumerates (L : List Nat) (P : Nat → Prop) : Prop :=
  L.Pairwise (· < ·) ∧ ∀ v, v ∈ L ↔ P v

/-- Bit `x` of a buffer of 64-bit words (0 outside the buffer). -/
def bitOf (out : List Nat) (x : Nat) : Bool := (out[x / 64]?.getD 0).testBit (x % 64)

/-- The memory that holds exactly the bytes `bs` at address `a` followed by `pad` zero bytes. -/
def memOf (a : Nat) (bs : List UInt8) (pad : Nat) : Mem :=
  fun i => if i < a then none else (bs ++ List.replicate pad 0)[i - a]?

/-- What is assumed about `shuffle_mask` of `table.hpp`, a file that is not in the repository: row
`mask` has 16 control bytes and begins with the positions of the set bits of `mask`, in increasing
order.  The rest of the row is arbitrary. -/
def TabOk (tab : Nat → List Nat) : Prop :=
  ∀ mask, mask < 65536 → (tab mask).length = 16 ∧
    (List.range 16).filter (fun j => mask.testBit j) <+: tab mask

/-- A table that meets `TabOk`: the remaining control bytes are 255. -/
def stdTab (mask : Nat) : List Nat :=
  let bits := (List.range 16).filter (fun j => mask.testBit j)
  bits ++ List.replicate (16 - bits.length) 255

end Sliced
