import Verif.Model.Index
import Verif.Model.Contains
import Verif.Model.Select
import Verif.Model.NextGeqEnumerator
import Verif.Model.Enumerator
import Verif.Model.Union
import Verif.Model.UnionMany
/-!
# Assertion erasure

For every function of the model and all arguments: the debug build either fails an assertion or
does exactly what the release build does.
-/
namespace Sliced

/-- `x` is the outcome of the debug build, `y` the one of the release build. -/
def Erase {α : Type} (x y : Res α) : Prop := x = .error .abort ∨ x = y

theorem Erase.refl {α : Type} (x : Res α) : Erase x x := Or.inr rfl

theorem Erase.bind {α β : Type} {x y : Res α} {f g : α → Res β} (h : Erase x y)
    (hf : ∀ a, Erase (f a) (g a)) : Erase (x >>= f) (y >>= g) := by
  rcases h with rfl | rfl
  · exact Or.inl rfl
  · cases x with
    | error e => exact Or.inr rfl
    | ok a => exact hf a

theorem Erase.map {α β : Type} {x y : Res α} {f : α → β} (h : Erase x y) :
    Erase (f <$> x) (f <$> y) := by
  rcases h with rfl | rfl
  · exact Or.inl rfl
  · exact Or.inr rfl

theorem Erase.ite {α : Type} {c : Prop} [Decidable c] {x y x' y' : Res α} (h : Erase x y)
    (h' : Erase x' y') : Erase (if c then x else x') (if c then y else y') := by
  split
  · exact h
  · exact h'

theorem Erase.cassert (c : Bool) : Erase (cassert true c) (cassert false c) := by
  cases c
  · exact Or.inl rfl
  · exact Or.inr rfl

theorem Erase.unreachable {α : Type} :
    Erase (unreachable true : Res α) (unreachable false) := Or.inl rfl

/-- extended below by one rule per function -/
syntax "erase_lemma" : tactic
macro_rules | `(tactic| erase_lemma) => `(tactic| fail "no rule")

macro "erase_step" : tactic => `(tactic| with_reducible first
  | exact Erase.refl _
  | exact Erase.cassert _
  | exact Erase.unreachable
  | erase_lemma
  | refine Erase.map ?_
  | refine Erase.ite ?_ ?_
  | refine Erase.bind ?_ ?_
  | intro _
  | split
  | dsimp only)
macro "erase" : tactic => `(tactic| repeat' erase_step)

theorem set_bit_erase (position : Nat) (bits : List Nat) :
    Erase (set_bit true position bits) (set_bit false position bits) := by
  unfold set_bit; erase
macro_rules | `(tactic| erase_lemma) => `(tactic| exact set_bit_erase ..)

theorem write_bits_loop_erase (base n : Nat) (begin bitmap : List Nat) :
    Erase (write_bits_loop true base n begin bitmap) (write_bits_loop false base n begin bitmap) := by
  induction n generalizing begin bitmap with
  | zero => exact Erase.refl _
  | succ n ih =>
    cases begin with
    | nil => exact Erase.refl _
    | cons x t => unfold write_bits_loop; erase <;> exact ih ..
macro_rules | `(tactic| erase_lemma) => `(tactic| exact write_bits_loop_erase ..)

theorem write_bits_erase (begin : List Nat) (n bits base : Nat) (out : List UInt8) :
    Erase (write_bits true begin n bits base out) (write_bits false begin n bits base out) := by
  unfold write_bits; erase
macro_rules | `(tactic| erase_lemma) => `(tactic| exact write_bits_erase ..)

theorem chunk_cardinality_loop_erase (s : Slice) (begin : List Nat) (prev c : Nat) :
    Erase (chunk_cardinality_loop true s begin prev c) (chunk_cardinality_loop false s begin prev c) := by
  induction begin generalizing prev c with
  | nil => exact Erase.refl _
  | cons x t ih => unfold chunk_cardinality_loop; erase <;> exact ih ..
macro_rules | `(tactic| erase_lemma) => `(tactic| exact chunk_cardinality_loop_erase ..)

theorem chunk_cardinality_erase (begin : List Nat) (s : Slice) :
    Erase (chunk_cardinality true begin s) (chunk_cardinality false begin s) := by
  unfold chunk_cardinality; erase
macro_rules | `(tactic| erase_lemma) => `(tactic| exact chunk_cardinality_erase ..)

theorem block_bitsize_erase (bs : Nat) (stats : Stats) :
    Erase (block_bitsize true bs stats) (block_bitsize false bs stats) := by
  unfold block_bitsize; erase
macro_rules | `(tactic| erase_lemma) => `(tactic| exact block_bitsize_erase ..)

theorem sparse_chunk_bitsize_loop_erase (s : Slice) (f : Nat) (begin : List Nat) (base bs : Nat)
    (stats : Stats) :
    Erase (sparse_chunk_bitsize_loop true s f begin base bs stats)
      (sparse_chunk_bitsize_loop false s f begin base bs stats) := by
  induction f generalizing begin base bs stats with
  | zero => exact Erase.refl _
  | succ n ih =>
    cases begin with
    | nil => exact Erase.refl _
    | cons x t => unfold sparse_chunk_bitsize_loop; erase <;> exact ih ..
macro_rules | `(tactic| erase_lemma) => `(tactic| exact sparse_chunk_bitsize_loop_erase ..)

theorem sparse_chunk_bitsize_erase (begin : List Nat) (s : Slice) :
    Erase (sparse_chunk_bitsize true begin s) (sparse_chunk_bitsize false begin s) := by
  unfold sparse_chunk_bitsize; erase
macro_rules | `(tactic| erase_lemma) => `(tactic| exact sparse_chunk_bitsize_erase ..)

theorem encode_block_erase (block : List Nat) (id : Nat) (header data : List UInt8) :
    Erase (encode_block true block id header data) (encode_block false block id header data) := by
  unfold encode_block; erase
macro_rules | `(tactic| erase_lemma) => `(tactic| exact encode_block_erase ..)

theorem encode_sparse_chunk_loop_erase (s : Slice) (f : Nat) (begin : List Nat) (base id : Nat)
    (block : List Nat) (header data : List UInt8) :
    Erase (encode_sparse_chunk_loop true s f begin base id block header data)
      (encode_sparse_chunk_loop false s f begin base id block header data) := by
  induction f generalizing begin base id block header data with
  | zero => exact Erase.refl _
  | succ n ih =>
    cases begin with
    | nil => exact Erase.refl _
    | cons x t => unfold encode_sparse_chunk_loop; erase <;> exact ih ..
macro_rules | `(tactic| erase_lemma) => `(tactic| exact encode_sparse_chunk_loop_erase ..)

theorem encode_sparse_chunk_erase (begin : List Nat) (s : Slice) (block : List Nat) (out : List UInt8) :
    Erase (encode_sparse_chunk true begin s block out) (encode_sparse_chunk false begin s block out) := by
  unfold encode_sparse_chunk; erase
macro_rules | `(tactic| erase_lemma) => `(tactic| exact encode_sparse_chunk_erase ..)

theorem encode_chunk_step_erase (i : Nat) (e : EncState) :
    Erase (encode_chunk_step true i e) (encode_chunk_step false i e) := by
  unfold encode_chunk_step
  cases e.rest with
  | nil => exact Erase.refl _
  | cons x t => erase
macro_rules | `(tactic| erase_lemma) => `(tactic| exact encode_chunk_step_erase ..)

theorem encode_chunks_erase (n i : Nat) (e : EncState) :
    Erase (encode_chunks true n i e) (encode_chunks false n i e) := by
  induction n generalizing i e with
  | zero => exact Erase.refl _
  | succ n ih => unfold encode_chunks; erase <;> exact ih ..
macro_rules | `(tactic| erase_lemma) => `(tactic| exact encode_chunks_erase ..)

theorem encode_sequence_erase (data block : List Nat) (stats : Stats) (out : List UInt8) :
    Erase (encode_sequence true data block stats out) (encode_sequence false data block stats out) := by
  unfold encode_sequence
  cases data.getLast? with
  | none => erase
  | some x => erase
macro_rules | `(tactic| erase_lemma) => `(tactic| exact encode_sequence_erase ..)

theorem build_sequence_erase (data : List Nat) (out : List UInt8) :
    Erase (build_sequence true data out) (build_sequence false data out) := by
  unfold build_sequence; erase

theorem build_loop_erase (params : Params) (data : List Nat) (f i : Nat) (st : IdxState) :
    Erase (build_loop true params data f i st) (build_loop false params data f i st) := by
  induction f generalizing i st with
  | zero => exact Erase.refl _
  | succ n ih => unfold build_loop; erase <;> exact ih ..
macro_rules | `(tactic| erase_lemma) => `(tactic| exact build_loop_erase ..)

theorem build_index_erase (params : Params) (data : List Nat) :
    Erase (build_index true params data) (build_index false params data) := by
  unfold build_index; erase

theorem index_get_erase (m : Mem) (s : SIndex) (i : Nat) :
    Erase (SIndex.get true m s i) (SIndex.get false m s i) := by
  unfold SIndex.get; erase

theorem decode_sparse_chunk_erase (m : Mem) (begin blocks base : Nat) (out : List Nat) (p : Nat) :
    Erase (decode_sparse_chunk true m begin blocks base out p)
      (decode_sparse_chunk false m begin blocks base out p) := by
  unfold decode_sparse_chunk; erase
macro_rules | `(tactic| erase_lemma) => `(tactic| exact decode_sparse_chunk_erase ..)

theorem decode_chunk_erase (m : Mem) (it : It) (out : List Nat) (p : Nat) :
    Erase (decode_chunk true m it out p) (decode_chunk false m it out p) := by
  unfold decode_chunk; erase
macro_rules | `(tactic| erase_lemma) => `(tactic| exact decode_chunk_erase ..)

theorem decode_loop_erase (m : Mem) (n : Nat) (it : It) (out : List Nat) (p : Nat) :
    Erase (decode_loop true m n it out p) (decode_loop false m n it out p) := by
  induction n generalizing it out p with
  | zero => exact Erase.refl _
  | succ n ih => unfold decode_loop; erase <;> exact ih ..
macro_rules | `(tactic| erase_lemma) => `(tactic| exact decode_loop_erase ..)

theorem decode_erase (m : Mem) (s : SSeq) (out : List Nat) (p : Nat) :
    Erase (s.decode true m out p) (s.decode false m out p) := by
  unfold SSeq.decode; erase

theorem uncompress_sparse_chunk_erase (m : Mem) (begin blocks : Nat) (out : List Nat) (p : Nat) :
    Erase (uncompress_sparse_chunk true m begin blocks out p)
      (uncompress_sparse_chunk false m begin blocks out p) := by
  unfold uncompress_sparse_chunk; erase
macro_rules | `(tactic| erase_lemma) => `(tactic| exact uncompress_sparse_chunk_erase ..)

theorem uncompress_chunk_erase (m : Mem) (it : It) (out : List Nat) (p : Nat) :
    Erase (uncompress_chunk true m it out p) (uncompress_chunk false m it out p) := by
  unfold uncompress_chunk; erase
macro_rules | `(tactic| erase_lemma) => `(tactic| exact uncompress_chunk_erase ..)

theorem uncompress_loop_erase (m : Mem) (n : Nat) (it : It) (prev : Nat) (out : List Nat) (p u : Nat) :
    Erase (uncompress_loop true m n it prev out p u) (uncompress_loop false m n it prev out p u) := by
  induction n generalizing it prev out p u with
  | zero => exact Erase.refl _
  | succ n ih => unfold uncompress_loop; erase <;> exact ih ..
macro_rules | `(tactic| erase_lemma) => `(tactic| exact uncompress_loop_erase ..)

theorem uncompress_erase (m : Mem) (s : SSeq) (out : List Nat) :
    Erase (s.uncompress true m out) (s.uncompress false m out) := by
  unfold SSeq.uncompress; erase

theorem enum_init_erase (m : Mem) (buf : List Nat) (s : SSeq) (pte : Nat) :
    Erase (Enum.init true m buf s pte) (Enum.init false m buf s pte) := by
  unfold Enum.init; erase

theorem enum_next_erase (m : Mem) (e : Enum) : Erase (e.next true m) (e.next false m) := by
  unfold Enum.next; erase

theorem contains_sparse_chunk_loop_erase (m : Mem) (value end_ f begin data : Nat) :
    Erase (contains_sparse_chunk_loop true m value end_ f begin data)
      (contains_sparse_chunk_loop false m value end_ f begin data) := by
  induction f generalizing begin data with
  | zero => exact Erase.refl _
  | succ n ih => unfold contains_sparse_chunk_loop; erase <;> exact ih ..
macro_rules | `(tactic| erase_lemma) => `(tactic| exact contains_sparse_chunk_loop_erase ..)

theorem contains_sparse_chunk_erase (m : Mem) (begin blocks value : Nat) :
    Erase (contains_sparse_chunk true m begin blocks value)
      (contains_sparse_chunk false m begin blocks value) := by
  unfold contains_sparse_chunk; erase
macro_rules | `(tactic| erase_lemma) => `(tactic| exact contains_sparse_chunk_erase ..)

theorem contains_erase (m : Mem) (s : SSeq) (value : Nat) :
    Erase (s.contains true m value) (s.contains false m value) := by
  unfold SSeq.contains; erase

theorem select_bitmap_loop_erase (b : Words) (rank n i elements : Nat) :
    Erase (select_bitmap_loop true b rank n i elements)
      (select_bitmap_loop false b rank n i elements) := by
  induction n generalizing i elements with
  | zero => exact Erase.unreachable
  | succ n ih => unfold select_bitmap_loop; erase <;> exact ih ..
macro_rules | `(tactic| erase_lemma) => `(tactic| exact select_bitmap_loop_erase ..)

theorem select_bitmap_erase (b : Words) (nwords rank : Nat) :
    Erase (select_bitmap true b nwords rank) (select_bitmap false b nwords rank) := by
  unfold select_bitmap; erase
macro_rules | `(tactic| erase_lemma) => `(tactic| exact select_bitmap_erase ..)

theorem select_sparse_chunk_loop_erase (m : Mem) (rank end_ f begin data elements : Nat) :
    Erase (select_sparse_chunk_loop true m rank end_ f begin data elements)
      (select_sparse_chunk_loop false m rank end_ f begin data elements) := by
  induction f generalizing begin data elements with
  | zero => exact Erase.refl _
  | succ n ih => unfold select_sparse_chunk_loop; erase <;> exact ih ..
macro_rules | `(tactic| erase_lemma) => `(tactic| exact select_sparse_chunk_loop_erase ..)

theorem select_sparse_chunk_erase (m : Mem) (begin blocks rank : Nat) :
    Erase (select_sparse_chunk true m begin blocks rank)
      (select_sparse_chunk false m begin blocks rank) := by
  unfold select_sparse_chunk; erase
macro_rules | `(tactic| erase_lemma) => `(tactic| exact select_sparse_chunk_erase ..)

theorem select_erase (m : Mem) (s : SSeq) (rank value : Nat) :
    Erase (s.select true m rank value) (s.select false m rank value) := by
  unfold SSeq.select; erase

theorem next_geq_sparse_chunk_erase (m : Mem) (begin blocks value : Nat) :
    Erase (next_geq_sparse_chunk true m begin blocks value)
      (next_geq_sparse_chunk false m begin blocks value) := by
  unfold next_geq_sparse_chunk; erase
macro_rules | `(tactic| erase_lemma) => `(tactic| exact next_geq_sparse_chunk_erase ..)

theorem min_value_in_sparse_chunk_erase (m : Mem) (begin blocks : Nat) :
    Erase (min_value_in_sparse_chunk true m begin blocks)
      (min_value_in_sparse_chunk false m begin blocks) := by
  unfold min_value_in_sparse_chunk; erase
macro_rules | `(tactic| erase_lemma) => `(tactic| exact min_value_in_sparse_chunk_erase ..)

theorem chunk_min_erase (m : Mem) (it : It) : Erase (chunk_min true m it) (chunk_min false m it) := by
  unfold chunk_min; erase
macro_rules | `(tactic| erase_lemma) => `(tactic| exact chunk_min_erase ..)

theorem next_geq_erase (m : Mem) (s : SSeq) (value : Nat) :
    Erase (s.next_geq true m value) (s.next_geq false m value) := by
  unfold SSeq.next_geq; erase

theorem geq_sparse_case_erase (m : Mem) (e : GeqEnum) (value : Nat) :
    Erase (e.sparse_case true m value) (e.sparse_case false m value) := by
  unfold GeqEnum.sparse_case; erase
macro_rules | `(tactic| erase_lemma) => `(tactic| exact geq_sparse_case_erase ..)

theorem geq_next_geq_erase (m : Mem) (e : GeqEnum) (value : Nat) :
    Erase (e.next_geq true m value) (e.next_geq false m value) := by
  unfold GeqEnum.next_geq; erase
macro_rules | `(tactic| erase_lemma) => `(tactic| exact geq_next_geq_erase ..)

theorem geq_run_erase (m : Mem) (e : GeqEnum) (vs : List Nat) :
    Erase (e.run true m vs) (e.run false m vs) := by
  induction vs generalizing e with
  | nil => exact Erase.refl _
  | cons v vs ih => unfold GeqEnum.run; erase <;> exact ih ..

theorem ss_intersect_block_erase (tab : Nat → List Nat) (m : Mem) (l r card_l card_r base : Nat)
    (buf : List Nat) (out : Nat) :
    Erase (ss_intersect_block true tab m l r card_l card_r base buf out)
      (ss_intersect_block false tab m l r card_l card_r base buf out) := by
  unfold ss_intersect_block; erase
macro_rules | `(tactic| erase_lemma) => `(tactic| exact ss_intersect_block_erase ..)

theorem intersect_blocks_erase (tab : Nat → List Nat) (m : Mem) (data_l data_r cl cr b : Nat)
    (buf : List Nat) (tmp : Nat) :
    Erase (intersect_blocks true tab m data_l data_r cl cr b buf tmp)
      (intersect_blocks false tab m data_l data_r cl cr b buf tmp) := by
  unfold intersect_blocks; erase
macro_rules | `(tactic| erase_lemma) => `(tactic| exact intersect_blocks_erase ..)

theorem ss_intersect_chunk_loop_erase (tab : Nat → List Nat) (m : Mem) (end_l end_r base f : Nat)
    (l data_l r data_r : Nat) (buf : List Nat) (tmp : Nat) :
    Erase (ss_intersect_chunk_loop true tab m end_l end_r base f l data_l r data_r buf tmp)
      (ss_intersect_chunk_loop false tab m end_l end_r base f l data_l r data_r buf tmp) := by
  induction f generalizing l data_l r data_r buf tmp with
  | zero => exact Erase.refl _
  | succ n ih =>
    unfold ss_intersect_chunk_loop
    refine Erase.bind (Erase.refl _) ?_
    rintro (_ | ⟨l, data_l⟩)
    · exact Erase.refl _
    · refine Erase.bind (Erase.refl _) ?_
      rintro (_ | ⟨r, data_r⟩)
      · exact Erase.refl _
      · erase <;> exact ih ..
macro_rules | `(tactic| erase_lemma) => `(tactic| exact ss_intersect_chunk_loop_erase ..)

theorem ss_intersect_chunk_erase (tab : Nat → List Nat) (m : Mem) (l r blocks_l blocks_r base : Nat)
    (buf : List Nat) (out : Nat) :
    Erase (ss_intersect_chunk true tab m l r blocks_l blocks_r base buf out)
      (ss_intersect_chunk false tab m l r blocks_l blocks_r base buf out) := by
  unfold ss_intersect_chunk; erase
macro_rules | `(tactic| erase_lemma) => `(tactic| exact ss_intersect_chunk_erase ..)

theorem ds_intersect_chunk_erase (m : Mem) (l r blocks_r base : Nat) (x buf : List Nat) (out : Nat) :
    Erase (ds_intersect_chunk true m l r blocks_r base x buf out)
      (ds_intersect_chunk false m l r blocks_r base x buf out) := by
  unfold ds_intersect_chunk; erase
macro_rules | `(tactic| erase_lemma) => `(tactic| exact ds_intersect_chunk_erase ..)

theorem intersect_chunks_erase (tab : Nat → List Nat) (m : Mem) (it_l it_r : It) (base : Nat)
    (x buf : List Nat) (out : Nat) :
    Erase (intersect_chunks true tab m it_l it_r base x buf out)
      (intersect_chunks false tab m it_l it_r base x buf out) := by
  unfold intersect_chunks; erase
macro_rules | `(tactic| erase_lemma) => `(tactic| exact intersect_chunks_erase ..)

theorem pairwise_intersection_loop_erase (tab : Nat → List Nat) (m : Mem) (f : Nat) (it_l it_r : It)
    (x buf : List Nat) (out : Nat) :
    Erase (pairwise_intersection_loop true tab m f it_l it_r x buf out)
      (pairwise_intersection_loop false tab m f it_l it_r x buf out) := by
  induction f generalizing it_l it_r x buf out with
  | zero => exact Erase.refl _
  | succ n ih => unfold pairwise_intersection_loop; erase <;> exact ih ..
macro_rules | `(tactic| erase_lemma) => `(tactic| exact pairwise_intersection_loop_erase ..)

theorem pairwise_intersection_erase (tab : Nat → List Nat) (m : Mem) (l r : SSeq) (x buf : List Nat)
    (out : Nat) :
    Erase (pairwise_intersection true tab m l r x buf out)
      (pairwise_intersection false tab m l r x buf out) := by
  unfold pairwise_intersection; erase

theorem ss_union_block_erase (m : Mem) (l r card_l card_r base : Nat) (buf : List Nat) (out : Nat) :
    Erase (ss_union_block true m l r card_l card_r base buf out)
      (ss_union_block false m l r card_l card_r base buf out) := by
  unfold ss_union_block; erase
macro_rules | `(tactic| erase_lemma) => `(tactic| exact ss_union_block_erase ..)

theorem union_blocks_erase (m : Mem) (data_l data_r cl cr b : Nat) (x4 buf : List Nat) (out : Nat) :
    Erase (union_blocks true m data_l data_r cl cr b x4 buf out)
      (union_blocks false m data_l data_r cl cr b x4 buf out) := by
  unfold union_blocks; erase
macro_rules | `(tactic| erase_lemma) => `(tactic| exact union_blocks_erase ..)

theorem ss_union_chunk_loop_erase (m : Mem) (end_l end_r base f : Nat) (s : UState) :
    Erase (ss_union_chunk_loop true m end_l end_r base f s)
      (ss_union_chunk_loop false m end_l end_r base f s) := by
  induction f generalizing s with
  | zero => exact Erase.refl _
  | succ n ih => unfold ss_union_chunk_loop; erase <;> exact ih ..
macro_rules | `(tactic| erase_lemma) => `(tactic| exact ss_union_chunk_loop_erase ..)

theorem ss_union_chunk_erase (m : Mem) (l r blocks_l blocks_r base : Nat) (x4 buf : List Nat)
    (out : Nat) :
    Erase (ss_union_chunk true m l r blocks_l blocks_r base x4 buf out)
      (ss_union_chunk false m l r blocks_l blocks_r base x4 buf out) := by
  unfold ss_union_chunk; erase
macro_rules | `(tactic| erase_lemma) => `(tactic| exact ss_union_chunk_erase ..)

theorem ds_union_chunk_erase (m : Mem) (l r blocks_r base : Nat) (x buf : List Nat) (out : Nat) :
    Erase (ds_union_chunk true m l r blocks_r base x buf out)
      (ds_union_chunk false m l r blocks_r base x buf out) := by
  unfold ds_union_chunk; erase
macro_rules | `(tactic| erase_lemma) => `(tactic| exact ds_union_chunk_erase ..)

theorem union_chunks_erase (m : Mem) (it_l it_r : It) (base : Nat) (s : UScratch) (buf : List Nat)
    (out : Nat) :
    Erase (union_chunks true m it_l it_r base s buf out)
      (union_chunks false m it_l it_r base s buf out) := by
  unfold union_chunks; erase
macro_rules | `(tactic| erase_lemma) => `(tactic| exact union_chunks_erase ..)

theorem pairwise_union_loop_erase (m : Mem) (f : Nat) (it_l it_r : It) (s : UScratch)
    (buf : List Nat) (out : Nat) :
    Erase (pairwise_union_loop true m f it_l it_r s buf out)
      (pairwise_union_loop false m f it_l it_r s buf out) := by
  induction f generalizing it_l it_r s buf out with
  | zero => exact Erase.refl _
  | succ n ih => unfold pairwise_union_loop; erase <;> exact ih ..
macro_rules | `(tactic| erase_lemma) => `(tactic| exact pairwise_union_loop_erase ..)

theorem decode_tail_erase (m : Mem) (f : Nat) (it : It) (buf : List Nat) (out : Nat) :
    Erase (decode_tail true m f it buf out) (decode_tail false m f it buf out) := by
  induction f generalizing it buf out with
  | zero => exact Erase.refl _
  | succ n ih => unfold decode_tail; erase <;> exact ih ..
macro_rules | `(tactic| erase_lemma) => `(tactic| exact decode_tail_erase ..)

theorem pairwise_union_erase (m : Mem) (l r : SSeq) (s : UScratch) (buf : List Nat) (out : Nat) :
    Erase (pairwise_union true m l r s buf out) (pairwise_union false m l r s buf out) := by
  unfold pairwise_union; erase

theorem uncompress_sparse_chunk_and_intersect_erase (m : Mem) (begin blocks : Nat)
    (tmp bitmap : List Nat) :
    Erase (uncompress_sparse_chunk_and_intersect true m begin blocks tmp bitmap)
      (uncompress_sparse_chunk_and_intersect false m begin blocks tmp bitmap) := by
  unfold uncompress_sparse_chunk_and_intersect; erase
macro_rules | `(tactic| erase_lemma) => `(tactic| exact uncompress_sparse_chunk_and_intersect_erase ..)

theorem uncompress_chunk_and_intersect_erase (m : Mem) (it : It) (tmp bitmap : List Nat) (c : Nat) :
    Erase (uncompress_chunk_and_intersect true m it tmp bitmap c)
      (uncompress_chunk_and_intersect false m it tmp bitmap c) := by
  unfold uncompress_chunk_and_intersect; erase
macro_rules | `(tactic| erase_lemma) => `(tactic| exact uncompress_chunk_and_intersect_erase ..)

theorem intersect_rest_erase (m : Mem) (header n i : Nat) (its : List It) (tmp bitmap : List Nat)
    (c : Nat) :
    Erase (intersect_rest true m header n i its tmp bitmap c)
      (intersect_rest false m header n i its tmp bitmap c) := by
  induction n generalizing i its tmp bitmap c with
  | zero => exact Erase.refl _
  | succ n ih => unfold intersect_rest; erase <;> exact ih ..
macro_rules | `(tactic| erase_lemma) => `(tactic| exact intersect_rest_erase ..)

theorem intersect_headers_erase (m : Mem) (n i : Nat) (its : List It) (s : IScratch)
    (buf : List Nat) (out : Nat) :
    Erase (intersect_headers true m n i its s buf out)
      (intersect_headers false m n i its s buf out) := by
  induction n generalizing i its s buf out with
  | zero => exact Erase.refl _
  | succ n ih => unfold intersect_headers; erase <;> exact ih ..
macro_rules | `(tactic| erase_lemma) => `(tactic| exact intersect_headers_erase ..)

theorem intersection_sorted_erase (m : Mem) (sequences : List SSeq) (s : IScratch)
    (buf : List Nat) (out : Nat) :
    Erase (intersection_sorted true m sequences s buf out)
      (intersection_sorted false m sequences s buf out) := by
  unfold intersection_sorted; erase
macro_rules | `(tactic| erase_lemma) => `(tactic| exact intersection_sorted_erase ..)

theorem intersection_erase (sort : (SSeq → Nat) → List SSeq → List SSeq) (m : Mem)
    (sequences : List SSeq) (s : IScratch) (buf : List Nat) (out : Nat) :
    Erase (intersection true sort m sequences s buf out)
      (intersection false sort m sequences s buf out) := by
  unfold intersection; erase

theorem uncompress_sparse_chunk_and_merge_erase (m : Mem) (begin blocks : Nat)
    (tmp bitmap : List Nat) :
    Erase (uncompress_sparse_chunk_and_merge true m begin blocks tmp bitmap)
      (uncompress_sparse_chunk_and_merge false m begin blocks tmp bitmap) := by
  unfold uncompress_sparse_chunk_and_merge; erase
macro_rules | `(tactic| erase_lemma) => `(tactic| exact uncompress_sparse_chunk_and_merge_erase ..)

theorem uncompress_chunk_and_merge_erase (m : Mem) (it : It) (tmp bitmap : List Nat) :
    Erase (uncompress_chunk_and_merge true m it tmp bitmap)
      (uncompress_chunk_and_merge false m it tmp bitmap) := by
  unfold uncompress_chunk_and_merge; erase
macro_rules | `(tactic| erase_lemma) => `(tactic| exact uncompress_chunk_and_merge_erase ..)

theorem merge_loop_erase (m : Mem) (header : Nat) (its : List It) (first : Bool) (s : MScratch) :
    Erase (merge_loop true m header its first s) (merge_loop false m header its first s) := by
  induction its generalizing first s with
  | nil => exact Erase.refl _
  | cons it its ih => unfold merge_loop; erase <;> exact ih ..
macro_rules | `(tactic| erase_lemma) => `(tactic| exact merge_loop_erase ..)

theorem union_many_loop_erase (m : Mem) (f : Nat) (its : List It) (header : Nat) (s : MScratch)
    (buf : List Nat) (out : Nat) :
    Erase (union_many_loop true m f its header s buf out)
      (union_many_loop false m f its header s buf out) := by
  induction f generalizing its header s buf out with
  | zero => exact Erase.refl _
  | succ n ih => unfold union_many_loop; erase <;> exact ih ..
macro_rules | `(tactic| erase_lemma) => `(tactic| exact union_many_loop_erase ..)

theorem union_many_erase (m : Mem) (sequences : List SSeq) (s : MScratch) (buf : List Nat) (out : Nat) :
    Erase (union_many true m sequences s buf out) (union_many false m sequences s buf out) := by
  unfold union_many; erase

end Sliced
