import Verif.Spec
import Verif.Model.Util
/-! # Specification vocabulary for collections -/
namespace Sliced

/-- The contents of a collection file, as 32-bit words: a singleton list holding the universe size,
then each list preceded by its length. -/
def collection (univ : Nat) (lists : List (List Nat)) : List Nat :=
  1 :: univ :: lists.flatMap (fun xs => xs.length :: xs)

/-- The filter in words: a non-empty list is kept if it is denser than the density threshold (when
there is one) or longer than the size threshold.  The density of a list is its length over its
largest (last) element. -/
def Kept (params : Params) (xs : List Nat) : Prop :=
  xs ≠ [] ∧ ((∃ f, params.denser = some f ∧ f xs.length (xs.getLast?.getD 0) = true) ∨
    params.size < xs.length)

instance (params : Params) (xs : List Nat) : Decidable (Kept params xs) := by
  unfold Kept
  cases params.denser with
  | none => exact decidable_of_iff (xs ≠ [] ∧ params.size < xs.length) (by simp)
  | some f =>
    exact decidable_of_iff (xs ≠ [] ∧ (f xs.length (xs.getLast?.getD 0) = true ∨
      params.size < xs.length)) (by simp)

/-- The lists of the collection that are kept, in order. -/
def keptLists (params : Params) (lists : List (List Nat)) : List (List Nat) :=
  lists.filter (fun xs => decide (Kept params xs))

/-- A collection the index builder is meant for: the universe size is a 32-bit value, lengths are
below `2^32 - 1`, and the lists that are kept are valid (the others may be anything). -/
def GoodCollection (params : Params) (univ : Nat) (lists : List (List Nat)) : Prop :=
  univ < 4294967296 ∧ (∀ xs ∈ lists, xs.length < 4294967295) ∧
    ∀ xs ∈ lists, Kept params xs → Valid xs

end Sliced
