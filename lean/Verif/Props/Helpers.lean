import Verif.Proof.EncodeSeq
/-! # The helpers of util.hpp that compute sizes (C20, C44) -/
namespace Sliced

/-- C20: util.hpp:56-58: `bytes_for` is the least number of bytes with room for that many bits, for every
number of bits (the builder asks for one only). -/
theorem C20_bytes_for (bits : Nat) : bits ≤ 8 * bytes_for bits ∧
    ∀ n, bits ≤ 8 * n → bytes_for bits ≤ n := by
  unfold bytes_for
  refine ⟨by omega, fun n h => by omega⟩

/-- C44: util.hpp:60-62: `num_chunks` is the least number of slices that hold all values up to the
universe, for every 32-bit universe. -/
theorem C44_num_chunks {univ : Nat} (h : univ < 4294967296) : univ < 65536 * num_chunks univ ∧
    ∀ n, univ < 65536 * n → num_chunks univ ≤ n := by
  rw [num_chunks_eq h]
  refine ⟨by omega, fun n h => by omega⟩

/-- C44: with 64-bit universes (the type of the argument) the number of slices may not fit: for 2^48 it is
cut off to 1. -/
theorem C44_num_chunks_wide : num_chunks (2 ^ 48) = 1 ∧ ¬ 2 ^ 48 < 65536 * num_chunks (2 ^ 48) := by
  decide

example : bytes_for 13 = 2 ∧ bytes_for 16 = 2 ∧ bytes_for 0 = 0 := by decide
example : num_chunks 65535 = 1 ∧ num_chunks 65536 = 2 ∧ num_chunks 4294967295 = 65536 := by decide

end Sliced
