import Verif.Model.Index
import Verif.Model.Contains
import Verif.Model.Select
import Verif.Model.NextGeqEnumerator
import Verif.Model.Enumerator
import Verif.Model.Union
import Verif.Model.UnionMany
import Verif.Proof.Bitmap
/-!
# Termination

For every function of the model and all arguments, in particular any memory contents: the fuel of its
loops suffices.
-/
namespace Sliced

/-- The piece of code comes to an end (normally or not). -/
structure Ends {α : Type} (x : Res α) : Prop where
  ne : x ≠ .error .diverge

theorem Ends.ok {α : Type} (a : α) : Ends (.ok a : Res α) := ⟨fun h => nomatch h⟩
theorem Ends.pure {α : Type} (a : α) : Ends (pure a : Res α) := ⟨fun h => nomatch h⟩
theorem Ends.ub {α : Type} : Ends (.error .ub : Res α) := ⟨fun h => nomatch h⟩
theorem Ends.exc {α : Type} : Ends (.error .exc : Res α) := ⟨fun h => nomatch h⟩
theorem Ends.abort {α : Type} : Ends (.error .abort : Res α) := ⟨fun h => nomatch h⟩

theorem Ends.bind' {α β : Type} {x : Res α} {f : α → Res β} (h : Ends x)
    (hf : ∀ a, x = .ok a → Ends (f a)) : Ends (x >>= f) := by
  cases x with
  | error e => exact ⟨fun h' => h.ne (by cases h'; rfl)⟩
  | ok a => exact hf a rfl

theorem Ends.bind {α β : Type} {x : Res α} {f : α → Res β} (h : Ends x)
    (hf : ∀ a, Ends (f a)) : Ends (x >>= f) := h.bind' (fun a _ => hf a)

theorem Ends.map {α β : Type} {x : Res α} {f : α → β} (h : Ends x) : Ends (f <$> x) := by
  cases x with
  | error e => exact ⟨fun h' => h.ne (by cases h'; rfl)⟩
  | ok a => exact Ends.ok _

theorem Ends.ite {α : Type} {c : Prop} [Decidable c] {x y : Res α} (h : Ends x) (h' : Ends y) :
    Ends (if c then x else y) := by
  split
  · exact h
  · exact h'

theorem Ends.cassert (dbg c : Bool) : Ends (cassert dbg c) := by
  unfold Sliced.cassert; split <;> exact ⟨fun h => nomatch h⟩
theorem Ends.unreachable {α : Type} (dbg : Bool) : Ends (unreachable dbg : Res α) := by
  unfold Sliced.unreachable; split <;> exact ⟨fun h => nomatch h⟩

/-- extended below by one rule per function -/
syntax "ends_lemma" : tactic
macro_rules | `(tactic| ends_lemma) => `(tactic| fail "no rule")

macro "ends_step" : tactic => `(tactic| with_reducible first
  | exact Ends.ok _
  | exact Ends.pure _
  | exact Ends.ub
  | exact Ends.exc
  | exact Ends.cassert _ _
  | exact Ends.unreachable _
  | assumption
  | ends_lemma
  | refine Ends.map ?_
  | refine Ends.ite ?_ ?_
  | refine Ends.bind ?_ ?_
  | intro _
  | split
  | dsimp only)
macro "ends" : tactic => `(tactic| repeat' ends_step)

/-! ## Machine -/

theorem rd8_ends (m : Mem) (a : Nat) : Ends (rd8 m a) := by unfold rd8; ends
macro_rules | `(tactic| ends_lemma) => `(tactic| exact rd8_ends ..)
theorem rd16_ends (m : Mem) (a : Nat) : Ends (rd16 m a) := by unfold rd16; ends
macro_rules | `(tactic| ends_lemma) => `(tactic| exact rd16_ends ..)
theorem rd32_ends (m : Mem) (a : Nat) : Ends (rd32 m a) := by unfold rd32; ends
macro_rules | `(tactic| ends_lemma) => `(tactic| exact rd32_ends ..)
theorem rd64_ends (m : Mem) (a : Nat) : Ends (rd64 m a) := by unfold rd64; ends
macro_rules | `(tactic| ends_lemma) => `(tactic| exact rd64_ends ..)
theorem wr_ends (out : List Nat) (i v : Nat) : Ends (wr out i v) := by unfold wr; ends
macro_rules | `(tactic| ends_lemma) => `(tactic| exact wr_ends ..)
theorem rdv_ends (v : List Nat) (i : Nat) : Ends (rdv v i) := by unfold rdv; ends
macro_rules | `(tactic| ends_lemma) => `(tactic| exact rdv_ends ..)
theorem rdIt_ends (v : List It) (i : Nat) : Ends (rdIt v i) := by unfold rdIt; ends
macro_rules | `(tactic| ends_lemma) => `(tactic| exact rdIt_ends ..)
theorem wrs_ends (out : List Nat) (p : Nat) (vs : List Nat) : Ends (wrs out p vs) := by
  induction vs generalizing out p with
  | nil => exact Ends.ok _
  | cons v vs ih => unfold wrs; ends; exact ih ..
macro_rules | `(tactic| ends_lemma) => `(tactic| exact wrs_ends ..)
theorem storeu_ends (out : List Nat) (p : Nat) (vs : List Nat) : Ends (storeu out p vs) :=
  wrs_ends ..
macro_rules | `(tactic| ends_lemma) => `(tactic| exact storeu_ends ..)
theorem ctz_ends (w : Nat) : Ends (ctz w) := by unfold ctz; ends
macro_rules | `(tactic| ends_lemma) => `(tactic| exact ctz_ends ..)
theorem clz_ends (w : Nat) : Ends (clz w) := by unfold clz; ends
macro_rules | `(tactic| ends_lemma) => `(tactic| exact clz_ends ..)
theorem mapM_ends {α β : Type} (f : α → Res β) (h : ∀ a, Ends (f a)) (l : List α) :
    Ends (l.mapM f) := by
  induction l with
  | nil => exact Ends.pure _
  | cons a l ih => rw [List.mapM_cons]; ends; exact h _
theorem lddqu_ends (m : Mem) (a : Nat) : Ends (lddqu m a) := mapM_ends _ (fun _ => rd8_ends ..) _
macro_rules | `(tactic| ends_lemma) => `(tactic| exact lddqu_ends ..)

/-! ## Builder -/

theorem set_bit_ends (dbg : Bool) (position : Nat) (bits : List Nat) :
    Ends (set_bit dbg position bits) := by unfold set_bit; ends
macro_rules | `(tactic| ends_lemma) => `(tactic| exact set_bit_ends ..)
theorem write_bits_loop_ends (dbg : Bool) (base n : Nat) (begin bitmap : List Nat) :
    Ends (write_bits_loop dbg base n begin bitmap) := by
  induction n generalizing begin bitmap with
  | zero => exact Ends.ok _
  | succ n ih =>
    cases begin with
    | nil => exact Ends.ub
    | cons x t => unfold write_bits_loop; ends; exact ih ..
macro_rules | `(tactic| ends_lemma) => `(tactic| exact write_bits_loop_ends ..)
theorem write_bits_ends (dbg : Bool) (begin : List Nat) (n bits base : Nat) (out : List UInt8) :
    Ends (write_bits dbg begin n bits base out) := by unfold write_bits; ends
macro_rules | `(tactic| ends_lemma) => `(tactic| exact write_bits_ends ..)
theorem chunk_cardinality_loop_ends (dbg : Bool) (s : Slice) (begin : List Nat) (prev c : Nat) :
    Ends (chunk_cardinality_loop dbg s begin prev c) := by
  induction begin generalizing prev c with
  | nil => exact Ends.ok _
  | cons x t ih => unfold chunk_cardinality_loop; ends; exact ih ..
macro_rules | `(tactic| ends_lemma) => `(tactic| exact chunk_cardinality_loop_ends ..)
theorem chunk_cardinality_ends (dbg : Bool) (begin : List Nat) (s : Slice) :
    Ends (chunk_cardinality dbg begin s) := by unfold chunk_cardinality; ends
macro_rules | `(tactic| ends_lemma) => `(tactic| exact chunk_cardinality_ends ..)
theorem arr_add_ends (a : List Nat) (i d : Nat) : Ends (arr_add a i d) := by unfold arr_add; ends
macro_rules | `(tactic| ends_lemma) => `(tactic| exact arr_add_ends ..)
theorem block_bitsize_ends (dbg : Bool) (bs : Nat) (stats : Stats) :
    Ends (block_bitsize dbg bs stats) := by unfold block_bitsize; ends
macro_rules | `(tactic| ends_lemma) => `(tactic| exact block_bitsize_ends ..)

/-- one flush of the block loops brings the next value 256 closer -/
theorem sub32_step {x base : Nat} (h : ¬ sub32 x base < 256) :
    sub32 x (u32 (base + 256)) = sub32 x base - 256 := by
  unfold sub32 u32 at *
  omega

theorem sub32_lt (x y : Nat) : sub32 x y < 4294967296 := Nat.mod_lt _ (by omega)

theorem sparse_chunk_bitsize_loop_ends (dbg : Bool) (s : Slice) (f : Nat) (begin : List Nat)
    (base bs : Nat) (stats : Stats)
    {K : Nat} (hK : 16777217 ≤ K)
    (hf : ∀ x t, begin = x :: t → t.length * K + sub32 x base / 256 + 1 < f) (h0 : 0 < f) :
    Ends (sparse_chunk_bitsize_loop dbg s f begin base bs stats) := by
  induction f generalizing begin base bs stats with
  | zero => omega
  | succ f ih =>
    cases begin with
    | nil => unfold sparse_chunk_bitsize_loop; exact Ends.ok _
    | cons x t =>
      have hx := hf x t rfl
      unfold sparse_chunk_bitsize_loop
      refine Ends.ite ?_ (Ends.ok _)
      dsimp only
      split
      · rename_i hv
        ends
        refine ih _ _ _ _ ?_ (by omega)
        intro y t' e
        obtain ⟨rfl, rfl⟩ := List.cons.inj e
        have hv : 256 ≤ sub32 x base := hv
        have := sub32_step (x := x) (base := base) (by omega)
        show t.length * K + sub32 x (u32 (base + 256)) / 256 + 1 < f
        rw [this]
        omega
      · ends
        refine ih _ _ _ _ ?_ (by omega)
        intro y t' e
        subst e
        have := sub32_lt y base
        rw [List.length_cons, Nat.succ_mul] at hx
        omega
theorem sparse_chunk_bitsize_ends (dbg : Bool) (begin : List Nat) (s : Slice) :
    Ends (sparse_chunk_bitsize dbg begin s) := by
  unfold sparse_chunk_bitsize
  refine Ends.bind ?_ (fun _ => block_bitsize_ends ..)
  refine sparse_chunk_bitsize_loop_ends _ _ _ _ _ _ _ (Nat.le_refl _) ?_ (by unfold sparse_loop_fuel; omega)
  intro x t e
  subst e
  have := sub32_lt x s.left
  unfold sparse_loop_fuel
  simp only [List.length_cons]
  omega
macro_rules | `(tactic| ends_lemma) => `(tactic| exact sparse_chunk_bitsize_ends ..)
theorem encode_block_ends (dbg : Bool) (block : List Nat) (id : Nat) (header data : List UInt8) :
    Ends (encode_block dbg block id header data) := by unfold encode_block; ends
macro_rules | `(tactic| ends_lemma) => `(tactic| exact encode_block_ends ..)

theorem encode_sparse_chunk_loop_ends (dbg : Bool) (s : Slice) (f : Nat) (begin : List Nat)
    (base id : Nat) (block : List Nat) (header data : List UInt8)
    {K : Nat} (hK : 16777217 ≤ K)
    (hf : ∀ x t, begin = x :: t → t.length * K + sub32 x base / 256 + 1 < f) (h0 : 0 < f) :
    Ends (encode_sparse_chunk_loop dbg s f begin base id block header data) := by
  induction f generalizing begin base id block header data with
  | zero => omega
  | succ f ih =>
    cases begin with
    | nil => unfold encode_sparse_chunk_loop; exact Ends.ok _
    | cons x t =>
      have hx := hf x t rfl
      unfold encode_sparse_chunk_loop
      refine Ends.ite ?_ (Ends.ok _)
      dsimp only
      split
      · rename_i hv
        ends
        refine ih _ _ _ _ _ _ ?_ (by omega)
        intro y t' e
        obtain ⟨rfl, rfl⟩ := List.cons.inj e
        have hv : 256 ≤ sub32 x base := hv
        have := sub32_step (x := x) (base := base) (by omega)
        show t.length * K + sub32 x (u32 (base + 256)) / 256 + 1 < f
        rw [this]
        omega
      · ends
        refine ih _ _ _ _ _ _ ?_ (by omega)
        intro y t' e
        subst e
        have := sub32_lt y base
        rw [List.length_cons, Nat.succ_mul] at hx
        omega
theorem encode_sparse_chunk_ends (dbg : Bool) (begin : List Nat) (s : Slice) (block : List Nat)
    (out : List UInt8) : Ends (encode_sparse_chunk dbg begin s block out) := by
  unfold encode_sparse_chunk
  refine Ends.bind ?_ (fun _ => by ends)
  refine encode_sparse_chunk_loop_ends _ _ _ _ _ _ _ _ _ (Nat.le_refl _) ?_ (by unfold sparse_loop_fuel; omega)
  intro x t e
  subst e
  have := sub32_lt x s.left
  unfold sparse_loop_fuel
  simp only [List.length_cons]
  omega
macro_rules | `(tactic| ends_lemma) => `(tactic| exact encode_sparse_chunk_ends ..)
theorem encode_chunk_step_ends (dbg : Bool) (i : Nat) (e : EncState) :
    Ends (encode_chunk_step dbg i e) := by unfold encode_chunk_step; ends
macro_rules | `(tactic| ends_lemma) => `(tactic| exact encode_chunk_step_ends ..)
theorem encode_chunks_ends (dbg : Bool) (n i : Nat) (e : EncState) :
    Ends (encode_chunks dbg n i e) := by
  induction n generalizing i e with
  | zero => exact Ends.ok _
  | succ n ih => unfold encode_chunks; ends; exact ih ..
macro_rules | `(tactic| ends_lemma) => `(tactic| exact encode_chunks_ends ..)
theorem pointer_group_ends (header : List Nat) (n base c o : Nat) :
    Ends (pointer_group header n base c o) := by
  induction n generalizing base c o with
  | zero => exact Ends.ok _
  | succ n ih => unfold pointer_group; ends; exact ih ..
macro_rules | `(tactic| ends_lemma) => `(tactic| exact pointer_group_ends ..)
theorem pointer_bytes_ends (header : List Nat) (n i : Nat) : Ends (pointer_bytes header n i) := by
  induction n generalizing i with
  | zero => exact Ends.ok _
  | succ n ih => unfold pointer_bytes; ends; exact ih ..
macro_rules | `(tactic| ends_lemma) => `(tactic| exact pointer_bytes_ends ..)
theorem encode_sequence_ends (dbg : Bool) (data block : List Nat) (stats : Stats)
    (out : List UInt8) : Ends (encode_sequence dbg data block stats out) := by
  unfold encode_sequence; ends
macro_rules | `(tactic| ends_lemma) => `(tactic| exact encode_sequence_ends ..)
theorem build_sequence_ends (dbg : Bool) (data : List Nat) (out : List UInt8) :
    Ends (build_sequence dbg data out) := by unfold build_sequence; ends

theorem rdv_lt {v : List Nat} {i x : Nat} (h : rdv v i = .ok x) : i < v.length := by
  unfold rdv at h
  cases e : v[i]? with
  | none => rw [e] at h; cases h
  | some y => exact (List.getElem?_eq_some_iff.mp e).1

theorem build_loop_ends (dbg : Bool) (params : Params) (data : List Nat)
    (hd : data.length ≤ 4294967297) (f i : Nat) (st : IdxState) (hi : 2 ≤ i)
    (hf : data.length - i < f) : Ends (build_loop dbg params data f i st) := by
  induction f generalizing i st with
  | zero => omega
  | succ f ih =>
    unfold build_loop
    split
    · refine Ends.bind' (rdv_ends ..) (fun n hn => Ends.bind' (rdv_ends ..) (fun u hu => ?_))
      have := rdv_lt hu
      have h32 : u32 (n + 1) = n + 1 := Nat.mod_eq_of_lt (by omega)
      rw [h32]
      split
      · refine Ends.bind (encode_sequence_ends ..) (fun r => ?_)
        exact ih _ _ (by omega) (by omega)
      · exact ih _ _ (by omega) (by omega)
    · exact Ends.ok _
theorem build_index_ends (dbg : Bool) (params : Params) (data : List Nat)
    (hd : data.length ≤ 4294967297) : Ends (build_index dbg params data) := by
  unfold build_index
  refine Ends.bind (rdv_ends ..) (fun _ => Ends.bind (Ends.cassert ..) (fun _ =>
    Ends.bind (rdv_ends ..) (fun _ => Ends.bind ?_ (fun _ => Ends.pure _))))
  exact build_loop_ends dbg params data hd _ _ _ (by omega) (by omega)

/-! ## Bitmaps -/

/-- The first `n` words end and are 64-bit values. -/
def WEnds (b : Words) (n : Nat) : Prop :=
  ∀ i, i < n → Ends (b i) ∧ ∀ w, b i = .ok w → w < 18446744073709551616

theorem bind_ok {α β : Type} {x : Res α} {f : α → Res β} {b : β} (h : (x >>= f) = .ok b) :
    ∃ a, x = .ok a ∧ f a = .ok b := by
  cases x with
  | error e => cases h
  | ok a => exact ⟨a, rfl, h⟩

theorem rd16_lt {m : Mem} {a x : Nat} (h : rd16 m a = .ok x) : x < 65536 := by
  unfold rd16 at h
  obtain ⟨b0, h0, h⟩ := bind_ok h
  obtain ⟨b1, h1, h⟩ := bind_ok h
  cases h
  have := rd8_lt h0
  have := rd8_lt h1
  omega
theorem rd32_lt {m : Mem} {a x : Nat} (h : rd32 m a = .ok x) : x < 4294967296 := by
  unfold rd32 at h
  obtain ⟨b0, h0, h⟩ := bind_ok h
  obtain ⟨b1, h1, h⟩ := bind_ok h
  cases h
  have := rd16_lt h0
  have := rd16_lt h1
  omega
theorem rd64_lt {m : Mem} {a x : Nat} (h : rd64 m a = .ok x) : x < 18446744073709551616 := by
  unfold rd64 at h
  obtain ⟨b0, h0, h⟩ := bind_ok h
  obtain ⟨b1, h1, h⟩ := bind_ok h
  cases h
  have := rd32_lt h0
  have := rd32_lt h1
  omega

theorem memWords_ends (m : Mem) (p n : Nat) : WEnds (memWords m p) n :=
  fun _ _ => ⟨rd64_ends .., fun _ h => rd64_lt h⟩
macro_rules | `(tactic| ends_lemma) => `(tactic| exact memWords_ends _ _ _)

/-- The first `n` entries (as far as present) are 64-bit values. -/
def Low (n : Nat) (v : List Nat) : Prop :=
  ∀ (i w : Nat), i < n → v[i]? = some w → w < 18446744073709551616

theorem rdv_eq {v : List Nat} {i x : Nat} (h : rdv v i = .ok x) : v[i]? = some x := by
  unfold rdv at h
  cases e : v[i]? with
  | none => rw [e] at h; cases h
  | some y => rw [e] at h; cases h; rfl

theorem vecWords_ends {v : List Nat} {n : Nat} (h : Low n v) : WEnds (vecWords v) n :=
  fun i hi => ⟨rdv_ends .., fun w hw => h i w hi (rdv_eq hw)⟩

theorem scan_word_ends (f w base : Nat) (out : List Nat) (p : Nat) (hw : w < 18446744073709551616)
    (hf : (bitsOf w).length < f) : Ends (scan_word f w base out p) := by
  induction f generalizing w out p with
  | zero => omega
  | succ f ih =>
    unfold scan_word
    split
    · exact Ends.ok _
    · dsimp only
      refine Ends.bind' (ctz_ends _) (fun r hr => Ends.bind (wr_ends ..) (fun out => ?_))
      have := bitsOf_clear hw hr
      refine ih _ _ _ (clear_lowest_lt hw _) ?_
      rw [this] at hf
      simp only [List.length_cons] at hf
      omega
theorem scan_word65_ends {w : Nat} (hw : w < 18446744073709551616) (base : Nat) (out : List Nat)
    (p : Nat) : Ends (scan_word 65 w base out p) :=
  scan_word_ends _ _ _ _ _ hw (by have := bitsOf_length_le w; omega)

theorem operate_loop_ends {op : Nat → Nat → Nat} {l r : Words} {N : Nat}
    (hop : ∀ a b, a < 18446744073709551616 → b < 18446744073709551616 →
      op a b < 18446744073709551616)
    (hl : WEnds l N) (hr : WEnds r N) (n i base : Nat) (out : List Nat) (p : Nat) (hn : i + n ≤ N) :
    Ends (operate_loop op l r n i base out p) := by
  induction n generalizing i base out p with
  | zero => exact Ends.ok _
  | succ n ih =>
    unfold operate_loop
    refine Ends.bind' (hl i (by omega)).1 (fun x hx => Ends.bind' (hr i (by omega)).1 (fun y hy => ?_))
    refine Ends.bind (scan_word65_ends
      (hop _ _ ((hl i (by omega)).2 x hx) ((hr i (by omega)).2 y hy)) ..) (fun q => ?_)
    exact ih _ _ _ _ (by omega)
theorem and_bitmaps_ends {l r : Words} {n : Nat} (hl : WEnds l n) (hr : WEnds r n) (base : Nat)
    (out : List Nat) (p : Nat) : Ends (and_bitmaps l r n base out p) := by
  unfold and_bitmaps operate_bitmaps
  refine Ends.bind (operate_loop_ends ?_ hl hr _ _ _ _ _ (by omega)) (fun _ => Ends.pure _)
  intro a b ha _
  exact Nat.lt_of_le_of_lt Nat.and_le_left ha
theorem or_bitmaps_ends {l r : Words} {n : Nat} (hl : WEnds l n) (hr : WEnds r n) (base : Nat)
    (out : List Nat) (p : Nat) : Ends (or_bitmaps l r n base out p) := by
  unfold or_bitmaps operate_bitmaps
  refine Ends.bind (operate_loop_ends ?_ hl hr _ _ _ _ _ (by omega)) (fun _ => Ends.pure _)
  intro a b ha hb
  exact Nat.or_lt_two_pow (n := 64) ha hb
theorem decode_bitmap_loop_ends {b : Words} {N : Nat} (hb : WEnds b N) (n i base : Nat)
    (out : List Nat) (p : Nat) (hn : i + n ≤ N) : Ends (decode_bitmap_loop b n i base out p) := by
  induction n generalizing i base out p with
  | zero => exact Ends.ok _
  | succ n ih =>
    unfold decode_bitmap_loop
    refine Ends.bind' (hb i (by omega)).1 (fun x hx => ?_)
    refine Ends.bind (scan_word65_ends ((hb i (by omega)).2 x hx) ..) (fun q => ?_)
    exact ih _ _ _ _ (by omega)
theorem decode_bitmap_ends {b : Words} {n : Nat} (hb : WEnds b n) (base : Nat) (out : List Nat)
    (p : Nat) : Ends (decode_bitmap b n base out p) := by
  unfold decode_bitmap
  exact Ends.bind (decode_bitmap_loop_ends hb _ _ _ _ _ (by omega)) (fun _ => Ends.pure _)
theorem decode_bitmap_mem_ends (m : Mem) (a n base : Nat) (out : List Nat) (p : Nat) :
    Ends (decode_bitmap (memWords m a) n base out p) := decode_bitmap_ends (memWords_ends _ _ _) ..
macro_rules | `(tactic| ends_lemma) => `(tactic| exact decode_bitmap_mem_ends ..)
theorem and_bitmaps_mem_ends (m : Mem) (a b n base : Nat) (out : List Nat) (p : Nat) :
    Ends (and_bitmaps (memWords m a) (memWords m b) n base out p) :=
  and_bitmaps_ends (memWords_ends _ _ _) (memWords_ends _ _ _) ..
macro_rules | `(tactic| ends_lemma) => `(tactic| exact and_bitmaps_mem_ends ..)
theorem or_bitmaps_mem_ends (m : Mem) (a b n base : Nat) (out : List Nat) (p : Nat) :
    Ends (or_bitmaps (memWords m a) (memWords m b) n base out p) :=
  or_bitmaps_ends (memWords_ends _ _ _) (memWords_ends _ _ _) ..
macro_rules | `(tactic| ends_lemma) => `(tactic| exact or_bitmaps_mem_ends ..)
theorem bitmap_contains_ends (m : Mem) (a pos : Nat) : Ends (bitmap_contains (memWords m a) pos) := by
  unfold bitmap_contains memWords; ends
macro_rules | `(tactic| ends_lemma) => `(tactic| exact bitmap_contains_ends ..)

/-! ## Iterators -/

theorem It.id_ends (m : Mem) (it : It) : Ends (it.id m) := by unfold It.id; ends
macro_rules | `(tactic| ends_lemma) => `(tactic| exact It.id_ends ..)
theorem It.base_ends (m : Mem) (it : It) : Ends (it.base m) := by unfold It.base; ends
macro_rules | `(tactic| ends_lemma) => `(tactic| exact It.base_ends ..)
theorem It.cardinality_ends (m : Mem) (it : It) : Ends (it.cardinality m) := by
  unfold It.cardinality; ends
macro_rules | `(tactic| ends_lemma) => `(tactic| exact It.cardinality_ends ..)
theorem It.type_ends (m : Mem) (it : It) : Ends (it.type m) := by unfold It.type; ends
macro_rules | `(tactic| ends_lemma) => `(tactic| exact It.type_ends ..)
theorem It.blocks_ends (m : Mem) (it : It) : Ends (it.blocks m) := by unfold It.blocks; ends
macro_rules | `(tactic| ends_lemma) => `(tactic| exact It.blocks_ends ..)
theorem It.next_ends (m : Mem) (it : It) : Ends (it.next m) := by
  unfold It.next It.offset; ends
macro_rules | `(tactic| ends_lemma) => `(tactic| exact It.next_ends ..)
theorem It.jump_ends (m : Mem) (it : It) : Ends (it.jump m) := by unfold It.jump; ends
macro_rules | `(tactic| ends_lemma) => `(tactic| exact It.jump_ends ..)
theorem SSeq.ofAddr_ends (m : Mem) (a : Nat) : Ends (SSeq.ofAddr m a) := by
  unfold SSeq.ofAddr; ends
macro_rules | `(tactic| ends_lemma) => `(tactic| exact SSeq.ofAddr_ends ..)
theorem cardinality_loop_ends (m : Mem) (n h c : Nat) : Ends (cardinality_loop m n h c) := by
  induction n generalizing h c with
  | zero => exact Ends.ok _
  | succ n ih => unfold cardinality_loop; ends; exact ih ..
theorem SSeq.cardinality_ends (m : Mem) (s : SSeq) : Ends (s.cardinality m) :=
  cardinality_loop_ends ..
macro_rules | `(tactic| ends_lemma) => `(tactic| exact SSeq.cardinality_ends ..)

theorem It.next_pos {m : Mem} {it it' : It} (h : it.next m = .ok it') :
    it'.begin_ = it.begin_ + 1 ∧ it'.end_ = it.end_ := by
  unfold It.next at h
  cases e : it.offset m with
  | error e' => rw [e] at h; cases h
  | ok o => rw [e] at h; cases h; exact ⟨rfl, rfl⟩
theorem It.jump_pos {m : Mem} {it it' : It} (h : it.jump m = .ok it') :
    it'.begin_ = it.begin_ + 32 ∧ it'.end_ = it.end_ := by
  unfold It.jump at h
  cases e : rd32 m (it.pointers + 4) with
  | error e' => rw [e] at h; cases h
  | ok o => rw [e] at h; cases h; exact ⟨rfl, rfl⟩

theorem It.has_next_iff (it : It) : it.has_next = true ↔ it.begin_ < it.end_ := by
  unfold It.has_next; exact decide_eq_true_iff

theorem It.advance_loop_ends (m : Mem) (lb f : Nat) (it : It) (hf : it.end_ - it.begin_ < f) :
    Ends (It.advance_loop m lb f it) := by
  induction f generalizing it with
  | zero => omega
  | succ f ih =>
    unfold It.advance_loop
    refine Ends.bind (It.id_ends ..) (fun i => ?_)
    split
    · rename_i h
      have hn := (Bool.and_eq_true _ _ ▸ h).2
      rw [It.has_next_iff] at hn
      refine Ends.bind' (It.next_ends ..) (fun it' e => ?_)
      obtain ⟨h1, h2⟩ := It.next_pos e
      exact ih _ (by omega)
    · exact Ends.pure _
theorem It.advance_ends (m : Mem) (it : It) (lb : Nat) : Ends (it.advance m lb) :=
  It.advance_loop_ends _ _ _ _ (by omega)
macro_rules | `(tactic| ends_lemma) => `(tactic| exact It.advance_ends ..)

theorem It.skip_value_loop_ends (m : Mem) (lb f : Nat) (it : It) (hf : it.end_ - it.begin_ < f) :
    Ends (It.skip_value_loop m lb f it) := by
  induction f generalizing it with
  | zero => omega
  | succ f ih =>
    unfold It.skip_value_loop
    split
    · rename_i h
      have h : it.begin_ + 32 < it.end_ := h
      refine Ends.bind (rd16_ends ..) (fun i => ?_)
      split
      · refine Ends.bind' (It.jump_ends ..) (fun it' e => ?_)
        obtain ⟨h1, h2⟩ := It.jump_pos e
        exact ih _ (by omega)
      · exact Ends.pure _
    · exact Ends.pure _
theorem It.skip_to_value_ends (m : Mem) (it : It) (lb : Nat) : Ends (it.skip_to_value m lb) := by
  unfold It.skip_to_value
  exact Ends.bind (It.skip_value_loop_ends _ _ _ _ (by omega)) (fun _ => It.advance_ends ..)
macro_rules | `(tactic| ends_lemma) => `(tactic| exact It.skip_to_value_ends ..)

theorem It.skip_position_loop_ends (m : Mem) (r f : Nat) (it : It) (el : Nat)
    (hf : it.end_ - it.begin_ < f) : Ends (It.skip_position_loop m r f it el) := by
  induction f generalizing it el with
  | zero => omega
  | succ f ih =>
    unfold It.skip_position_loop
    split
    · rename_i h
      have h : it.begin_ + 32 < it.end_ := h
      refine Ends.bind (rd32_ends ..) (fun i => ?_)
      split
      · exact Ends.pure _
      · refine Ends.bind' (It.jump_ends ..) (fun it' e => ?_)
        obtain ⟨h1, h2⟩ := It.jump_pos e
        exact ih _ _ (by omega)
    · exact Ends.pure _
theorem It.advance_position_loop_ends (m : Mem) (r f : Nat) (it : It) (el : Nat)
    (hf : it.end_ - it.begin_ < f) : Ends (It.advance_position_loop m r f it el) := by
  induction f generalizing it el with
  | zero => omega
  | succ f ih =>
    unfold It.advance_position_loop
    split
    · rename_i h
      rw [It.has_next_iff] at h
      refine Ends.bind (It.cardinality_ends ..) (fun i => ?_)
      split
      · exact Ends.pure _
      · refine Ends.bind' (It.next_ends ..) (fun it' e => ?_)
        obtain ⟨h1, h2⟩ := It.next_pos e
        exact ih _ _ (by omega)
    · exact Ends.pure _
theorem It.skip_to_position_ends (m : Mem) (it : It) (r : Nat) : Ends (it.skip_to_position m r) := by
  unfold It.skip_to_position
  refine Ends.bind (It.skip_position_loop_ends _ _ _ _ _ (by omega)) (fun p => ?_)
  exact It.advance_position_loop_ends _ _ _ _ _ (by omega)
macro_rules | `(tactic| ends_lemma) => `(tactic| exact It.skip_to_position_ends ..)

/-! ## contains, decode, select -/

theorem sparse_block_contains_loop_ends (m : Mem) (begin value n i : Nat) :
    Ends (sparse_block_contains_loop m begin value n i) := by
  induction n generalizing i with
  | zero => exact Ends.ok _
  | succ n ih => unfold sparse_block_contains_loop; ends; exact ih ..
theorem sparse_block_contains_ends (m : Mem) (begin c value : Nat) :
    Ends (sparse_block_contains m begin c value) := sparse_block_contains_loop_ends ..
macro_rules | `(tactic| ends_lemma) => `(tactic| exact sparse_block_contains_ends ..)
theorem contains_sparse_chunk_loop_ends (dbg : Bool) (m : Mem) (value end_ f n begin data : Nat)
    (hf : n < f) (he : begin + 2 * n = end_) :
    Ends (contains_sparse_chunk_loop dbg m value end_ f begin data) := by
  induction f generalizing n begin data with
  | zero => omega
  | succ f ih =>
    unfold contains_sparse_chunk_loop
    dsimp only
    split
    · exact Ends.ok _
    · ends <;> exact ih (n - 1) _ _ (by omega) (by omega)
theorem contains_sparse_chunk_ends (dbg : Bool) (m : Mem) (begin blocks value : Nat) :
    Ends (contains_sparse_chunk dbg m begin blocks value) := by
  unfold contains_sparse_chunk
  exact Ends.bind (Ends.cassert ..) (fun _ =>
    contains_sparse_chunk_loop_ends _ _ _ _ _ blocks _ _ (by omega) (by omega))
macro_rules | `(tactic| ends_lemma) => `(tactic| exact contains_sparse_chunk_ends ..)
theorem contains_ends (dbg : Bool) (m : Mem) (s : SSeq) (v : Nat) : Ends (s.contains dbg m v) := by
  unfold SSeq.contains; ends

theorem decode_lane_ends (m : Mem) (src base : Nat) (out : List Nat) (p : Nat) :
    Ends (decode_lane m src base out p) := by unfold decode_lane; ends
macro_rules | `(tactic| ends_lemma) => `(tactic| exact decode_lane_ends ..)
theorem decode_sparse_block_ends (m : Mem) (begin c base : Nat) (out : List Nat) (p : Nat) :
    Ends (decode_sparse_block m begin c base out p) := by unfold decode_sparse_block; ends
macro_rules | `(tactic| ends_lemma) => `(tactic| exact decode_sparse_block_ends ..)
theorem decode_sparse_chunk_loop_ends (m : Mem) (base end_ f n begin data : Nat) (out : List Nat)
    (tmp : Nat) (hf : n < f) (he : begin + 2 * n = end_) :
    Ends (decode_sparse_chunk_loop m base end_ f begin data out tmp) := by
  induction f generalizing n begin data out tmp with
  | zero => omega
  | succ f ih =>
    unfold decode_sparse_chunk_loop
    dsimp only
    split
    · exact Ends.ok _
    · ends <;> exact ih (n - 1) _ _ _ _ (by omega) (by omega)
theorem decode_sparse_chunk_ends (dbg : Bool) (m : Mem) (begin blocks base : Nat) (out : List Nat)
    (p : Nat) : Ends (decode_sparse_chunk dbg m begin blocks base out p) := by
  unfold decode_sparse_chunk
  exact Ends.bind (Ends.cassert ..) (fun _ => Ends.bind
    (decode_sparse_chunk_loop_ends _ _ _ _ blocks _ _ _ _ (by omega) (by omega))
    (fun _ => Ends.pure _))
macro_rules | `(tactic| ends_lemma) => `(tactic| exact decode_sparse_chunk_ends ..)
theorem decode_full_chunk_ends (base : Nat) (out : List Nat) (p : Nat) :
    Ends (decode_full_chunk base out p) := by unfold decode_full_chunk; ends
macro_rules | `(tactic| ends_lemma) => `(tactic| exact decode_full_chunk_ends ..)
theorem decode_chunk_ends (dbg : Bool) (m : Mem) (it : It) (out : List Nat) (p : Nat) :
    Ends (decode_chunk dbg m it out p) := by unfold decode_chunk; ends
macro_rules | `(tactic| ends_lemma) => `(tactic| exact decode_chunk_ends ..)
theorem decode_loop_ends (dbg : Bool) (m : Mem) (n : Nat) (it : It) (out : List Nat) (p : Nat) :
    Ends (decode_loop dbg m n it out p) := by
  induction n generalizing it out p with
  | zero => exact Ends.ok _
  | succ n ih => unfold decode_loop; ends; exact ih ..
macro_rules | `(tactic| ends_lemma) => `(tactic| exact decode_loop_ends ..)
theorem decode_ends (dbg : Bool) (m : Mem) (s : SSeq) (out : List Nat) (p : Nat) :
    Ends (s.decode dbg m out p) := by unfold SSeq.decode; ends

theorem select_bitmap_loop_ends (dbg : Bool) (m : Mem) (a rank n i el : Nat) :
    Ends (select_bitmap_loop dbg (memWords m a) rank n i el) := by
  induction n generalizing i el with
  | zero => exact Ends.unreachable _
  | succ n ih =>
    unfold select_bitmap_loop
    refine Ends.bind (rd64_ends ..) (fun w => ?_)
    ends; exact ih ..
theorem select_bitmap_ends (dbg : Bool) (m : Mem) (a n rank : Nat) :
    Ends (select_bitmap dbg (memWords m a) n rank) := select_bitmap_loop_ends ..
macro_rules | `(tactic| ends_lemma) => `(tactic| exact select_bitmap_ends ..)
theorem select_sparse_chunk_loop_ends (dbg : Bool) (m : Mem) (rank end_ f n begin data el : Nat)
    (hf : n < f) (he : begin + 2 * n = end_) :
    Ends (select_sparse_chunk_loop dbg m rank end_ f begin data el) := by
  induction f generalizing n begin data el with
  | zero => omega
  | succ f ih =>
    unfold select_sparse_chunk_loop
    dsimp only
    split
    · exact Ends.unreachable _
    · ends <;> exact ih (n - 1) _ _ _ (by omega) (by omega)
theorem select_sparse_chunk_ends (dbg : Bool) (m : Mem) (begin blocks rank : Nat) :
    Ends (select_sparse_chunk dbg m begin blocks rank) := by
  unfold select_sparse_chunk
  exact Ends.bind (Ends.cassert ..) (fun _ =>
    select_sparse_chunk_loop_ends _ _ _ _ _ blocks _ _ _ (by omega) (by omega))
macro_rules | `(tactic| ends_lemma) => `(tactic| exact select_sparse_chunk_ends ..)
theorem select_ends (dbg : Bool) (m : Mem) (s : SSeq) (r v : Nat) : Ends (s.select dbg m r v) := by
  unfold SSeq.select; ends

/-! ## next_geq -/

theorem next_geq_sparse_block_loop_ends (m : Mem) (begin value n i : Nat) :
    Ends (next_geq_sparse_block_loop m begin value n i) := by
  induction n generalizing i with
  | zero => exact Ends.ok _
  | succ n ih => unfold next_geq_sparse_block_loop; ends; exact ih ..
theorem next_geq_sparse_block_ends (m : Mem) (begin c value : Nat) :
    Ends (next_geq_sparse_block m begin c value) := next_geq_sparse_block_loop_ends ..
macro_rules | `(tactic| ends_lemma) => `(tactic| exact next_geq_sparse_block_ends ..)
theorem max_value_in_bitmap_ends (m : Mem) (a n : Nat) :
    Ends (max_value_in_bitmap (memWords m a) n) := by
  unfold max_value_in_bitmap
  induction n with
  | zero => exact Ends.ok _
  | succ n ih =>
    unfold max_value_in_bitmap_loop
    refine Ends.bind (rd64_ends ..) (fun w => ?_)
    ends
macro_rules | `(tactic| ends_lemma) => `(tactic| exact max_value_in_bitmap_ends ..)
theorem min_value_in_bitmap_loop_ends (m : Mem) (a n i : Nat) :
    Ends (min_value_in_bitmap_loop (memWords m a) n i) := by
  induction n generalizing i with
  | zero => exact Ends.ok _
  | succ n ih =>
    unfold min_value_in_bitmap_loop
    refine Ends.bind (rd64_ends ..) (fun w => ?_)
    ends; exact ih ..
theorem min_value_in_bitmap_ends (m : Mem) (a n : Nat) :
    Ends (min_value_in_bitmap (memWords m a) n) := min_value_in_bitmap_loop_ends ..
macro_rules | `(tactic| ends_lemma) => `(tactic| exact min_value_in_bitmap_ends ..)
theorem next_geq_bitmap_loop_ends (m : Mem) (a n f k word : Nat) (hk : k < n) (hf : n - k < f) :
    Ends (next_geq_bitmap_loop (memWords m a) n f k word) := by
  induction f generalizing k word with
  | zero => omega
  | succ f ih =>
    unfold next_geq_bitmap_loop
    dsimp only
    split
    · split
      · exact Ends.ok _
      · exact Ends.bind (rd64_ends ..) (fun w => ih _ _ (by omega) (by omega))
    · ends
theorem next_geq_bitmap_ends (m : Mem) (a n value : Nat) (h : value / 64 < n) :
    Ends (next_geq_bitmap (memWords m a) n value) := by
  unfold next_geq_bitmap
  dsimp only
  exact Ends.bind (rd64_ends ..) (fun w => next_geq_bitmap_loop_ends _ _ _ _ _ _ h (by omega))
theorem max_value_in_block_ends (m : Mem) (begin data : Nat) :
    Ends (max_value_in_block m begin data) := by unfold max_value_in_block; ends
macro_rules | `(tactic| ends_lemma) => `(tactic| exact max_value_in_block_ends ..)
theorem block_min_ends (m : Mem) (begin data base : Nat) : Ends (block_min m begin data base) := by
  unfold block_min; ends
macro_rules | `(tactic| ends_lemma) => `(tactic| exact block_min_ends ..)

/-- `skip_blocks` ends and stays on block headers. -/
theorem skip_blocks_ends (m : Mem) (block_id end_ f n begin data id : Nat) (hf : n < f)
    (he : begin + 2 * n = end_) : Ends (skip_blocks m block_id end_ f begin data id) := by
  induction f generalizing n begin data id with
  | zero => omega
  | succ f ih =>
    unfold skip_blocks
    split
    · rename_i h
      have := h.2
      ends
      exact ih (n - 1) _ _ _ (by omega) (by omega)
    · exact Ends.ok _
theorem skip_blocks_post {m : Mem} {block_id end_ f n begin data id b d i : Nat}
    (h : skip_blocks m block_id end_ f begin data id = .ok (b, d, i))
    (he : begin + 2 * n = end_) : ∃ k, b + 2 * k = end_ ∧ k ≤ n := by
  induction f generalizing n begin data id with
  | zero => cases h
  | succ f ih =>
    unfold skip_blocks at h
    split at h
    · rename_i hc
      have := hc.2
      obtain ⟨c, -, h⟩ := bind_ok h
      obtain ⟨i', -, h⟩ := bind_ok h
      obtain ⟨k, h1, h2⟩ := ih (n := n - 1) h (by omega)
      exact ⟨k, h1, by omega⟩
    · cases h
      exact ⟨n, he, Nat.le_refl _⟩
theorem next_geq_block_ends (m : Mem) (data v : Nat) :
    Ends (next_geq_bitmap (memWords m data) block_size_in_64bit_words (v % 256)) :=
  next_geq_bitmap_ends _ _ _ _ (by show v % 256 / 64 < 4; omega)
macro_rules | `(tactic| ends_lemma) => `(tactic| exact next_geq_block_ends ..)
theorem next_geq_chunk_ends (m : Mem) (data v : Nat) :
    Ends (next_geq_bitmap (memWords m data) chunk_size_in_64bit_words (v % 65536)) :=
  next_geq_bitmap_ends _ _ _ _ (by show v % 65536 / 64 < 1024; omega)
macro_rules | `(tactic| ends_lemma) => `(tactic| exact next_geq_chunk_ends ..)
theorem next_geq_sparse_chunk_ends (dbg : Bool) (m : Mem) (begin blocks value : Nat) :
    Ends (next_geq_sparse_chunk dbg m begin blocks value) := by
  unfold next_geq_sparse_chunk
  refine Ends.bind (Ends.cassert ..) (fun _ => ?_)
  dsimp only
  refine Ends.bind (rd8_ends ..) (fun id => Ends.bind
    (skip_blocks_ends _ _ _ _ blocks _ _ _ (by omega) (by omega)) (fun p => ?_))
  ends
macro_rules | `(tactic| ends_lemma) => `(tactic| exact next_geq_sparse_chunk_ends ..)
theorem min_value_in_sparse_chunk_ends (dbg : Bool) (m : Mem) (begin blocks : Nat) :
    Ends (min_value_in_sparse_chunk dbg m begin blocks) := by
  unfold min_value_in_sparse_chunk; ends
macro_rules | `(tactic| ends_lemma) => `(tactic| exact min_value_in_sparse_chunk_ends ..)
theorem chunk_min_ends (dbg : Bool) (m : Mem) (it : It) : Ends (chunk_min dbg m it) := by
  unfold chunk_min; ends
macro_rules | `(tactic| ends_lemma) => `(tactic| exact chunk_min_ends ..)
theorem next_geq_ends (dbg : Bool) (m : Mem) (s : SSeq) (v : Nat) : Ends (s.next_geq dbg m v) := by
  unfold SSeq.next_geq; ends

/-! ## next_geq_enumerator -/

/-- The block pointers of the enumerator are on block headers of one chunk. -/
def GeqEnum.Sane (e : GeqEnum) : Prop := ∃ n, e.begin_ + 2 * n = e.end_

theorem GeqEnum.new_sane {m : Mem} {s : SSeq} {e : GeqEnum} (h : GeqEnum.new m s = .ok e) :
    e.Sane := by
  unfold GeqEnum.new at h
  obtain ⟨n, -, h⟩ := bind_ok h
  cases h
  exact ⟨0, rfl⟩
theorem GeqEnum.new_ends (m : Mem) (s : SSeq) : Ends (GeqEnum.new m s) := by
  unfold GeqEnum.new SSeq.size; ends

/-- The piece of code comes to an end, and if it returns, its result satisfies `P`. -/
structure EndsP {α : Type} (P : α → Prop) (x : Res α) : Prop where
  ends : Ends x
  post : ∀ a, x = .ok a → P a

theorem EndsP.ok {α : Type} {P : α → Prop} {a : α} (h : P a) : EndsP P (.ok a) :=
  ⟨Ends.ok _, fun _ e => by cases e; exact h⟩
theorem EndsP.pure {α : Type} {P : α → Prop} {a : α} (h : P a) : EndsP P (pure a : Res α) :=
  EndsP.ok h
theorem EndsP.ub {α : Type} {P : α → Prop} : EndsP P (.error .ub : Res α) :=
  ⟨Ends.ub, fun _ e => by cases e⟩
theorem EndsP.unreachable {α : Type} {P : α → Prop} (dbg : Bool) :
    EndsP P (unreachable dbg : Res α) :=
  ⟨Ends.unreachable _, fun _ e => by unfold Sliced.unreachable at e; split at e <;> cases e⟩
theorem EndsP.bind' {α β : Type} {P : β → Prop} {x : Res α} {f : α → Res β} (h : Ends x)
    (hf : ∀ a, x = .ok a → EndsP P (f a)) : EndsP P (x >>= f) :=
  ⟨h.bind' (fun a e => (hf a e).ends), fun b e => by
    obtain ⟨a, h1, h2⟩ := bind_ok e
    exact (hf a h1).post b h2⟩
theorem EndsP.bind {α β : Type} {P : β → Prop} {x : Res α} {f : α → Res β} (h : Ends x)
    (hf : ∀ a, EndsP P (f a)) : EndsP P (x >>= f) := EndsP.bind' h (fun a _ => hf a)
theorem EndsP.bindP {α β : Type} {Q : α → Prop} {P : β → Prop} {x : Res α} {f : α → Res β}
    (h : EndsP Q x) (hf : ∀ a, Q a → EndsP P (f a)) : EndsP P (x >>= f) :=
  EndsP.bind' h.ends (fun a e => hf a (h.post a e))
theorem EndsP.bindE {α β : Type} {Q : α → Prop} {x : Res α} {f : α → Res β}
    (h : EndsP Q x) (hf : ∀ a, Q a → Ends (f a)) : Ends (x >>= f) :=
  Ends.bind' h.ends (fun a e => hf a (h.post a e))

/-- `GeqEnum.sparse_case` after the block search -/
theorem GeqEnum.sparse_rest_ends (m : Mem) (e : GeqEnum) (v : Nat) (p : Nat × Nat × Nat) (k : Nat)
    (hk : p.1 + 2 * k = e.end_) : EndsP (fun p : GeqEnum × Nat => p.1.Sane) (do
      let e := { e with begin_ := p.1, data := p.2.1, id := p.2.2 }
      if e.begin_ ≠ e.end_ then do
        let base := e.id * 256
        if base ≥ v then do
          let v ← block_min m e.begin_ e.data base
          return (e, v)
        else do
          let value := v % 256
          let mx ← max_value_in_block m e.begin_ e.data
          if value > mx then
            if e.begin_ + 2 = e.end_ then return (e, not_found)
            else do
              let c1 ← rd8 m (e.begin_ + 1)
              let data := e.data + bytes_by_cardinality (c1 + 1)
              let begin_ := e.begin_ + 2
              let id ← rd8 m begin_
              let e := { e with data := data, begin_ := begin_, id := id }
              let v ← block_min m e.begin_ e.data (e.id * 256)
              return (e, v)
          else do
            let base := e.id * 256
            let c1 ← rd8 m (e.begin_ + 1)
            let c := c1 + 1
            if c < 31 then do
              let x ← next_geq_sparse_block m e.data c value
              return (e, u32 (x + base))
            else do
              let x ← next_geq_bitmap (memWords m e.data) block_size_in_64bit_words value
              return (e, u32 (x + base))
      else return (e, not_found)) := by
  dsimp only
  split
  · split
    · exact EndsP.bind (block_min_ends ..) (fun _ => EndsP.pure ⟨k, hk⟩)
    · refine EndsP.bind (max_value_in_block_ends ..) (fun mx => ?_)
      split
      · split
        · exact EndsP.pure ⟨k, hk⟩
        · refine EndsP.bind (rd8_ends ..) (fun c1 => EndsP.bind (rd8_ends ..) (fun id =>
            EndsP.bind (block_min_ends ..) (fun v => EndsP.pure ⟨k - 1, ?_⟩)))
          dsimp only
          omega
      · refine EndsP.bind (rd8_ends ..) (fun c1 => ?_)
        split
        · exact EndsP.bind (next_geq_sparse_block_ends ..) (fun _ => EndsP.pure ⟨k, hk⟩)
        · exact EndsP.bind (next_geq_block_ends ..) (fun _ => EndsP.pure ⟨k, hk⟩)
  · exact EndsP.pure ⟨k, hk⟩

theorem GeqEnum.sparse_case_ends (dbg : Bool) (m : Mem) (e : GeqEnum) (v : Nat) (he : e.Sane) :
    EndsP (fun p => p.1.Sane) (e.sparse_case dbg m v) := by
  unfold GeqEnum.sparse_case
  dsimp only
  refine EndsP.bind (It.id_ends ..) (fun cid => ?_)
  obtain ⟨n, hn⟩ := he
  split
  · refine EndsP.bind (It.blocks_ends ..) (fun b => EndsP.bind (Ends.cassert ..) (fun _ =>
      EndsP.bind (rd8_ends ..) (fun i => ?_)))
    rw [pure_bind]
    refine EndsP.bind' (skip_blocks_ends _ _ _ _ b _ _ _ (by dsimp only; omega)
      (by dsimp only; omega)) (fun p hp => ?_)
    obtain ⟨k, hk, -⟩ := skip_blocks_post (n := b) hp (by dsimp only; omega)
    exact GeqEnum.sparse_rest_ends _ _ _ _ k hk
  · rw [pure_bind]
    refine EndsP.bind' (skip_blocks_ends _ _ _ _ n _ _ _ (by omega) hn) (fun p hp => ?_)
    obtain ⟨k, hk, -⟩ := skip_blocks_post hp hn
    exact GeqEnum.sparse_rest_ends _ _ _ _ k hk
theorem GeqEnum.next_geq_ends (dbg : Bool) (m : Mem) (e : GeqEnum) (v : Nat) (he : e.Sane) :
    EndsP (fun p => p.1.Sane) (e.next_geq dbg m v) := by
  unfold GeqEnum.next_geq
  dsimp only
  refine EndsP.bind (It.skip_to_value_ends ..) (fun it => EndsP.bind (It.base_ends ..) (fun b => ?_))
  have sane : ∀ (e : GeqEnum) it, e.Sane → GeqEnum.Sane { e with it := it } := fun _ _ h => h
  split
  · exact EndsP.bind (chunk_min_ends ..) (fun _ => EndsP.pure (sane _ _ he))
  · split
    · refine EndsP.bind (It.type_ends ..) (fun t => ?_)
      have rest : ∀ p : GeqEnum × Nat, p.1.Sane → EndsP (fun p : GeqEnum × Nat => p.1.Sane)
          (if p.2 ≠ not_found then do
            let b ← p.1.it.base m
            pure (p.1, u32 (p.2 + b))
          else do
            let it ← p.1.it.next m
            if it.has_next then do
              let v ← chunk_min dbg m it
              pure ({ p.1 with it := it }, v)
            else pure ({ p.1 with it := it }, not_found)) := by
        intro p hp
        split
        · exact EndsP.bind (It.base_ends ..) (fun _ => EndsP.pure hp)
        · refine EndsP.bind (It.next_ends ..) (fun it => ?_)
          split
          · exact EndsP.bind (chunk_min_ends ..) (fun _ => EndsP.pure (sane _ _ hp))
          · exact EndsP.pure (sane _ _ hp)
      split
      · exact EndsP.bindP (GeqEnum.sparse_case_ends _ _ _ _ (sane _ _ he)) (fun p hp => rest p hp)
      · split
        · exact EndsP.bind (next_geq_chunk_ends ..) (fun v => rest (_, v) (sane _ _ he))
        · split
          · exact rest (_, _) (sane _ _ he)
          · exact EndsP.bindP (EndsP.unreachable _) (fun p hp => rest p hp)
    · exact EndsP.pure (sane _ _ he)

theorem GeqEnum.run_ends (dbg : Bool) (m : Mem) (vs : List Nat) (e : GeqEnum) (he : e.Sane) :
    Ends (GeqEnum.run dbg m e vs) := by
  induction vs generalizing e with
  | nil => exact Ends.ok _
  | cons v vs ih =>
    unfold GeqEnum.run
    exact EndsP.bindE (GeqEnum.next_geq_ends _ _ _ _ he) (fun p hp =>
      Ends.bind (ih _ hp) (fun _ => Ends.pure _))

/-! ## uncompress and enumerator -/

theorem wr_eq {out out' : List Nat} {i v : Nat} (h : wr out i v = .ok out') : out' = out.set i v := by
  unfold wr at h
  split at h
  · cases h; rfl
  · cases h

theorem Low.set {N : Nat} {v : List Nat} (h : Low N v) {i w : Nat}
    (hw : i < N → w < 18446744073709551616) : Low N (v.set i w) := by
  intro j x hj hx
  rw [List.getElem?_set] at hx
  split at hx
  · subst i
    split at hx
    · cases hx; exact hw hj
    · cases hx
  · exact h j x hj hx
theorem Low.set_succ {n : Nat} {v : List Nat} (h : Low n v) {w : Nat}
    (hw : w < 18446744073709551616) : Low (n + 1) (v.set n w) := by
  intro j x hj hx
  rw [List.getElem?_set] at hx
  split at hx
  · subst j
    split at hx
    · cases hx; exact hw
    · cases hx
  · exact h j x (by omega) hx
theorem Low.mono {n N : Nat} {v : List Nat} (h : Low N v) (hn : n ≤ N) : Low n v :=
  fun i w hi hw => h i w (by omega) hw
theorem Low.zeros (N n : Nat) : Low N (List.replicate n 0) := by
  intro i w _ hw
  rw [List.getElem?_replicate] at hw
  split at hw <;> cases hw
  decide

theorem wr_low {N : Nat} {out : List Nat} (h : Low N out) {i v : Nat}
    (hv : i < N → v < 18446744073709551616) : EndsP (Low N) (wr out i v) :=
  ⟨wr_ends .., fun _ e => by rw [wr_eq e]; exact h.set hv⟩

theorem bit_lt (p : Nat) : 2 ^ (p % 64) < 18446744073709551616 :=
  Nat.pow_lt_pow_right (a := 2) (n := 64) (by decide) (Nat.mod_lt p (by decide))

theorem uncompress_sparse_block_loop_ends {N : Nat} (m : Mem) (end_ f n begin : Nat) (out : List Nat)
    (p : Nat) (h : Low N out) (hf : n + 1 < f) (he : begin + (n + 1) = end_) :
    EndsP (Low N) (uncompress_sparse_block_loop m end_ f begin out p) := by
  induction f generalizing n begin out with
  | zero => omega
  | succ f ih =>
    unfold uncompress_sparse_block_loop
    refine EndsP.bind (rd8_ends ..) (fun pos => EndsP.bind' (rdv_ends ..) (fun load hl => ?_))
    refine EndsP.bindP (wr_low h (fun hi => ?_)) (fun out' h' => ?_)
    · exact Nat.or_lt_two_pow (n := 64) (h _ _ hi (rdv_eq hl)) (bit_lt _)
    · split
      · exact EndsP.pure h'
      · exact ih (n - 1) _ _ h' (by omega) (by omega)
theorem uncompress_sparse_block_ends {N : Nat} (m : Mem) (begin c1 : Nat) (out : List Nat)
    (p : Nat) (h : Low N out) : EndsP (Low N) (uncompress_sparse_block m begin (c1 + 1) out p) :=
  uncompress_sparse_block_loop_ends _ _ _ c1 _ _ _ h (by omega) (by omega)
theorem memcpy_words_ends {N : Nat} (m : Mem) (a n i : Nat) (out : List Nat) (p : Nat)
    (h : Low N out) : EndsP (Low N) (memcpy_words (memWords m a) n i out p) := by
  induction n generalizing i out with
  | zero => exact EndsP.ok h
  | succ n ih =>
    unfold memcpy_words
    refine EndsP.bind' (rd64_ends ..) (fun w hw => EndsP.bindP (wr_low h (fun _ => rd64_lt hw))
      (fun out' h' => ih _ _ h'))
theorem memcpy_words_low (m : Mem) (a n i : Nat) (out : List Nat) (h : Low i out) :
    EndsP (Low (i + n)) (memcpy_words (memWords m a) n i out 0) := by
  induction n generalizing i out with
  | zero => exact EndsP.ok h
  | succ n ih =>
    unfold memcpy_words
    refine EndsP.bind' (rd64_ends ..) (fun w hw => EndsP.bind' (wr_ends ..) (fun out' h' => ?_))
    rw [Nat.zero_add] at h'
    rw [show i + (n + 1) = i + 1 + n by omega]
    exact ih _ _ (by rw [wr_eq h']; exact h.set_succ (rd64_lt hw))
theorem wrs_low (out : List Nat) (i : Nat) (vs : List Nat) (h : Low i out)
    (hv : ∀ v ∈ vs, v < 18446744073709551616) : EndsP (Low (i + vs.length)) (wrs out i vs) := by
  induction vs generalizing out i with
  | nil => exact EndsP.ok h
  | cons v vs ih =>
    unfold wrs
    refine EndsP.bind' (wr_ends ..) (fun out' h' => ?_)
    rw [List.length_cons, show i + (vs.length + 1) = i + 1 + vs.length by omega]
    exact ih _ _ (by rw [wr_eq h']; exact h.set_succ (hv _ (List.mem_cons_self ..)))
      (fun w hw => hv w (List.mem_cons_of_mem _ hw))
theorem wrs_ends_low {N : Nat} (out : List Nat) (i : Nat) (vs : List Nat) (h : Low N out)
    (hv : ∀ v ∈ vs, v < 18446744073709551616) : EndsP (Low N) (wrs out i vs) := by
  induction vs generalizing out i with
  | nil => exact EndsP.ok h
  | cons v vs ih =>
    unfold wrs
    exact EndsP.bindP (wr_low h (fun _ => hv _ (List.mem_cons_self ..))) (fun out' h' =>
      ih _ _ h' (fun w hw => hv w (List.mem_cons_of_mem _ hw)))
theorem uncompress_sparse_chunk_loop_ends {N : Nat} (m : Mem) (n begin data prev : Nat)
    (out : List Nat) (bitmap : Nat) (h : Low N out) :
    EndsP (Low N) (uncompress_sparse_chunk_loop m n begin data prev out bitmap) := by
  induction n generalizing begin data prev out bitmap with
  | zero => exact EndsP.ok h
  | succ n ih =>
    unfold uncompress_sparse_chunk_loop
    refine EndsP.bind (rd8_ends ..) (fun id => EndsP.bind (rd8_ends ..) (fun c1 => ?_))
    dsimp only
    split
    · exact EndsP.bindP (uncompress_sparse_block_ends _ _ _ _ _ h) (fun _ h => ih _ _ _ _ _ h)
    · exact EndsP.bindP (memcpy_words_ends _ _ _ _ _ _ h) (fun _ h => ih _ _ _ _ _ h)
theorem uncompress_sparse_chunk_ends {N : Nat} (dbg : Bool) (m : Mem) (begin blocks : Nat)
    (out : List Nat) (p : Nat) (h : Low N out) :
    EndsP (Low N) (uncompress_sparse_chunk dbg m begin blocks out p) :=
  EndsP.bind (Ends.cassert ..) (fun _ => uncompress_sparse_chunk_loop_ends _ _ _ _ _ _ _ h)
theorem Low.nil (v : List Nat) : Low 0 v := fun _ _ h => by omega
theorem uncompress_chunk_ends (dbg : Bool) (m : Mem) (it : It) (out : List Nat) (p : Nat) :
    Ends (uncompress_chunk dbg m it out p) := by
  unfold uncompress_chunk
  refine Ends.bind (It.type_ends ..) (fun t => ?_)
  split
  · refine Ends.bind (wrs_ends ..) (fun out => Ends.bind (It.blocks_ends ..) (fun b => ?_))
    exact EndsP.bindE (uncompress_sparse_chunk_ends _ _ _ _ _ _ (Low.nil _)) (fun _ _ => by ends)
  · split
    · exact EndsP.bindE (memcpy_words_ends _ _ _ _ _ _ (Low.nil _)) (fun _ _ => by ends)
    · split
      · exact Ends.bind (wrs_ends ..) (fun _ => by ends)
      · ends
/-- a chunk uncompressed at the start of the buffer: the first 1024 words are 64-bit values, whatever
was there before -/
theorem uncompress_chunk_low (dbg : Bool) (m : Mem) (it : It) (out : List Nat) :
    EndsP (fun r => Low 1024 r.2) (uncompress_chunk dbg m it out 0) := by
  unfold uncompress_chunk
  refine EndsP.bind (It.type_ends ..) (fun t => ?_)
  have rest : ∀ v, Low 1024 v → EndsP (fun r : Nat × List Nat => Low 1024 r.2)
      (do let c ← it.cardinality m; pure (c, v)) :=
    fun v hv => EndsP.bind (It.cardinality_ends ..) (fun _ => EndsP.pure hv)
  split
  · refine EndsP.bindP (wrs_low _ _ _ (Low.nil _) ?_) (fun out h => ?_)
    · intro v hv
      rw [List.eq_of_mem_replicate hv]
      decide
    · rw [List.length_replicate, Nat.zero_add] at h
      exact EndsP.bind (It.blocks_ends ..) (fun b =>
        EndsP.bindP (uncompress_sparse_chunk_ends _ _ _ _ _ _ h) (fun v hv => rest v hv))
  · split
    · refine EndsP.bindP (memcpy_words_low _ _ _ _ _ (Low.nil _)) (fun v hv => rest v ?_)
      exact hv.mono (by decide)
    · split
      · refine EndsP.bindP (wrs_low _ _ _ (Low.nil _) ?_) (fun v hv => rest v ?_)
        · intro v hv
          rw [List.eq_of_mem_replicate hv]
          decide
        · rw [List.length_replicate, Nat.zero_add] at hv
          exact hv
      · exact EndsP.bindP (EndsP.unreachable _) (fun v hv => rest v hv)
theorem uncompress_loop_ends (dbg : Bool) (m : Mem) (n : Nat) (it : It) (prev : Nat)
    (out : List Nat) (p u : Nat) : Ends (uncompress_loop dbg m n it prev out p u) := by
  induction n generalizing it prev out p u with
  | zero => exact Ends.ok _
  | succ n ih =>
    unfold uncompress_loop
    exact Ends.bind (It.id_ends ..) (fun i => Ends.bind (uncompress_chunk_ends ..) (fun r =>
      Ends.bind (It.next_ends ..) (fun it => ih ..)))
theorem uncompress_ends (dbg : Bool) (m : Mem) (s : SSeq) (out : List Nat) :
    Ends (s.uncompress dbg m out) := by
  unfold SSeq.uncompress
  exact Ends.bind (uncompress_loop_ends ..) (fun r => by ends)
theorem Enum.init_ends (dbg : Bool) (m : Mem) (buf : List Nat) (s : SSeq) (pte : Nat) :
    Ends (Enum.init dbg m buf s pte) := by unfold Enum.init; ends
theorem Enum.next_ends (dbg : Bool) (m : Mem) (e : Enum) : Ends (e.next dbg m) := by
  unfold Enum.next; ends
theorem Enum.value_ends (e : Enum) : Ends e.value := by unfold Enum.value; ends

/-! ## pairwise intersection -/

theorem intersect_step_ends (tab : Nat → List Nat) (v_l : List Nat) (card_l : Nat) (v_r : List Nat)
    (card_r base size : Nat) (buf : List Nat) (out : Nat) :
    Ends (intersect_step tab v_l card_l v_r card_r base size buf out) := by
  unfold intersect_step; ends
macro_rules | `(tactic| ends_lemma) => `(tactic| exact intersect_step_ends ..)

theorem scalar_skip_l_ends (m : Mem) (end_l r f l : Nat) (hl : l < end_l) (hf : end_l - l < f) :
    EndsP (fun o => ∀ l', o = some l' → l ≤ l' ∧ l' < end_l ∧
      ∀ x y, rd8 m l' = .ok x → rd8 m r = .ok y → y ≤ x) (scalar_skip_l m end_l r f l) := by
  induction f generalizing l with
  | zero => omega
  | succ f ih =>
    unfold scalar_skip_l
    refine EndsP.bind' (rd8_ends ..) (fun x hx => EndsP.bind' (rd8_ends ..) (fun y hy => ?_))
    split
    · split
      · exact EndsP.pure (fun _ h => nomatch h)
      · have := ih (l + 1) (by omega) (by omega)
        exact ⟨this.ends, fun o ho l' h => by
          obtain ⟨h1, h2⟩ := this.post o ho l' h
          exact ⟨by omega, h2⟩⟩
    · refine EndsP.pure (fun l' h => ?_)
      cases h
      refine ⟨Nat.le_refl _, hl, fun x' y' hx' hy' => ?_⟩
      rw [hx] at hx'; rw [hy] at hy'
      cases hx'; cases hy'
      omega
theorem scalar_skip_r_ends (m : Mem) (end_r l f r : Nat) (hr : r < end_r) (hf : end_r - r < f) :
    EndsP (fun o => ∀ r', o = some r' → r ≤ r' ∧ r' < end_r ∧
      ∀ x y, rd8 m l = .ok x → rd8 m r' = .ok y → x ≤ y) (scalar_skip_r m end_r l f r) := by
  induction f generalizing r with
  | zero => omega
  | succ f ih =>
    unfold scalar_skip_r
    refine EndsP.bind' (rd8_ends ..) (fun x hx => EndsP.bind' (rd8_ends ..) (fun y hy => ?_))
    split
    · split
      · exact EndsP.pure (fun _ h => nomatch h)
      · have := ih (r + 1) (by omega) (by omega)
        exact ⟨this.ends, fun o ho l' h => by
          obtain ⟨h1, h2⟩ := this.post o ho l' h
          exact ⟨by omega, h2⟩⟩
    · refine EndsP.pure (fun l' h => ?_)
      cases h
      refine ⟨Nat.le_refl _, hr, fun x' y' hx' hy' => ?_⟩
      rw [hx] at hx'; rw [hy] at hy'
      cases hx'; cases hy'
      omega
theorem scalar_loop_ends (m : Mem) (end_l end_r base out f l r size : Nat) (buf : List Nat)
    (hl : l < end_l) (hr : r < end_r) (hf : (end_l - l) + (end_r - r) < f) :
    Ends (scalar_loop m end_l end_r base out f l r size buf) := by
  induction f generalizing l r size buf with
  | zero => omega
  | succ f ih =>
    unfold scalar_loop
    refine EndsP.bindE (scalar_skip_l_ends _ _ _ _ _ hl (by omega)) (fun o ho => ?_)
    cases o with
    | none => exact Ends.pure _
    | some l' =>
      obtain ⟨l1, l2, l3⟩ := ho l' rfl
      dsimp only
      refine EndsP.bindE (scalar_skip_r_ends _ _ _ _ _ hr (by omega)) (fun o ho => ?_)
      cases o with
      | none => exact Ends.pure _
      | some r' =>
        obtain ⟨r1, r2, r3⟩ := ho r' rfl
        dsimp only
        refine Ends.bind' (rd8_ends ..) (fun x hx => Ends.bind' (rd8_ends ..) (fun y hy => ?_))
        split
        · refine Ends.bind (wr_ends ..) (fun buf => ?_)
          split
          · exact Ends.pure _
          · split
            · exact Ends.pure _
            · exact ih _ _ _ _ (by omega) (by omega) (by omega)
        · rename_i hne
          have hlt := r3 x y hx hy
          have : r ≠ r' := by
            intro e
            subst e
            have := l3 x y hx hy
            omega
          exact ih _ _ _ _ l2 r2 (by omega)
theorem ss_intersect_block_ends (dbg : Bool) (tab : Nat → List Nat) (m : Mem) (l r cl cr base : Nat)
    (buf : List Nat) (out : Nat) :
    Ends (ss_intersect_block dbg tab m l r (cl + 1) (cr + 1) base buf out) := by
  unfold ss_intersect_block
  refine Ends.bind (Ends.cassert ..) (fun _ => Ends.bind (Ends.cassert ..) (fun _ => ?_))
  split
  · ends
  · split
    · ends
    · split
      · ends
      · exact scalar_loop_ends _ _ _ _ _ _ _ _ _ _ (by omega) (by omega) (by omega)
macro_rules | `(tactic| ends_lemma) => `(tactic| exact ss_intersect_block_ends ..)
theorem ds_intersect_block_loop_ends (m : Mem) (l r base out n i k : Nat) (buf : List Nat) :
    Ends (ds_intersect_block_loop m l r base out n i k buf) := by
  induction n generalizing i k buf with
  | zero => exact Ends.ok _
  | succ n ih => unfold ds_intersect_block_loop; ends <;> exact ih ..
theorem ds_intersect_block_ends (m : Mem) (l r card base : Nat) (buf : List Nat) (out : Nat) :
    Ends (ds_intersect_block m l r card base buf out) := ds_intersect_block_loop_ends ..
macro_rules | `(tactic| ends_lemma) => `(tactic| exact ds_intersect_block_ends ..)
theorem intersect_blocks_ends (dbg : Bool) (tab : Nat → List Nat) (m : Mem)
    (data_l data_r cl cr b : Nat) (buf : List Nat) (tmp : Nat) :
    Ends (intersect_blocks dbg tab m data_l data_r (cl + 1) (cr + 1) b buf tmp) := by
  unfold intersect_blocks; ends
macro_rules | `(tactic| ends_lemma) => `(tactic| exact intersect_blocks_ends ..)

theorem skip_lower_blocks_ends (m : Mem) (end_p q f n p data : Nat)
    (he : p + 2 * (n + 1) = end_p) (hf : n < f) :
    EndsP (fun o => ∀ p' d', o = some (p', d') → p ≤ p' ∧ (∃ n', p' + 2 * (n' + 1) = end_p) ∧
      ∀ x y, rd8 m p' = .ok x → rd8 m q = .ok y → y ≤ x) (skip_lower_blocks m end_p q f p data) := by
  induction f generalizing n p data with
  | zero => omega
  | succ f ih =>
    unfold skip_lower_blocks
    refine EndsP.bind' (rd8_ends ..) (fun x hx => EndsP.bind' (rd8_ends ..) (fun y hy => ?_))
    split
    · split
      · exact EndsP.pure (fun _ _ h => nomatch h)
      · refine EndsP.bind (rd8_ends ..) (fun c1 => ?_)
        have := ih (n - 1) (p + 2) (data + bytes_by_cardinality (c1 + 1)) (by omega) (by omega)
        exact ⟨this.ends, fun o ho l' d' h => by
          obtain ⟨h1, h2⟩ := this.post o ho l' d' h
          exact ⟨by omega, h2⟩⟩
    · refine EndsP.pure (fun p' d' h => ?_)
      cases h
      refine ⟨Nat.le_refl _, ⟨n, he⟩, fun x' y' hx' hy' => ?_⟩
      rw [hx] at hx'; rw [hy] at hy'
      cases hx'; cases hy'
      omega
theorem ss_intersect_chunk_loop_ends (dbg : Bool) (tab : Nat → List Nat) (m : Mem)
    (end_l end_r base f nl nr l data_l r data_r : Nat) (buf : List Nat) (tmp : Nat)
    (hl : l + 2 * (nl + 1) = end_l) (hr : r + 2 * (nr + 1) = end_r) (hf : nl + nr + 2 < f) :
    Ends (ss_intersect_chunk_loop dbg tab m end_l end_r base f l data_l r data_r buf tmp) := by
  induction f generalizing nl nr l data_l r data_r buf tmp with
  | zero => omega
  | succ f ih =>
    unfold ss_intersect_chunk_loop
    refine EndsP.bindE (skip_lower_blocks_ends _ _ _ _ nl _ _ hl (by omega)) (fun o ho => ?_)
    cases o with
    | none => exact Ends.pure _
    | some p =>
      obtain ⟨l', dl'⟩ := p
      obtain ⟨l1, ⟨nl', l2⟩, l3⟩ := ho _ _ rfl
      dsimp only
      refine EndsP.bindE (skip_lower_blocks_ends _ _ _ _ nr _ _ hr (by omega)) (fun o ho => ?_)
      cases o with
      | none => exact Ends.pure _
      | some p =>
        obtain ⟨r', dr'⟩ := p
        obtain ⟨r1, ⟨nr', r2⟩, r3⟩ := ho _ _ rfl
        dsimp only
        refine Ends.bind' (rd8_ends ..) (fun x hx => Ends.bind' (rd8_ends ..) (fun y hy => ?_))
        split
        · refine Ends.bind (rd8_ends ..) (fun cl => Ends.bind (rd8_ends ..) (fun cr =>
            Ends.bind (intersect_blocks_ends ..) (fun q => ?_)))
          split
          · exact Ends.pure _
          · rename_i hne
            have := not_or.mp hne
            exact ih (nl' - 1) (nr' - 1) _ _ _ _ _ _ (by omega) (by omega) (by omega)
        · rename_i hne
          have : r ≠ r' := by
            intro e
            subst e
            have := l3 x y hx hy
            have := r3 y x hy hx
            omega
          exact ih nl' nr' _ _ _ _ _ _ l2 r2 (by omega)
theorem ss_intersect_chunk_ends (dbg : Bool) (tab : Nat → List Nat) (m : Mem)
    (l r bl br base : Nat) (buf : List Nat) (out : Nat) (hl : 0 < bl) (hr : 0 < br) :
    Ends (ss_intersect_chunk dbg tab m l r bl br base buf out) := by
  unfold ss_intersect_chunk
  refine Ends.bind (Ends.cassert ..) (fun _ => Ends.bind (Ends.cassert ..) (fun _ => ?_))
  exact Ends.bind (ss_intersect_chunk_loop_ends _ _ _ _ _ _ _ (bl - 1) (br - 1) _ _ _ _ _ _
    (by omega) (by omega) (by omega)) (fun _ => Ends.pure _)
theorem ds_intersect_chunk_ends (dbg : Bool) (m : Mem) (l r blocks_r base : Nat) (x buf : List Nat)
    (out : Nat) : Ends (ds_intersect_chunk dbg m l r blocks_r base x buf out) := by
  unfold ds_intersect_chunk
  exact EndsP.bindE (uncompress_sparse_chunk_ends _ _ _ _ _ _ (Low.zeros _ _)) (fun x hx =>
    Ends.bind (and_bitmaps_ends (memWords_ends _ _ _) (vecWords_ends hx) ..) (fun _ => Ends.pure _))
macro_rules | `(tactic| ends_lemma) => `(tactic| exact ds_intersect_chunk_ends ..)
theorem It.blocks_pos {m : Mem} {it : It} {b : Nat} (h : it.blocks m = .ok b) : 0 < b := by
  unfold It.blocks at h
  obtain ⟨x, -, h⟩ := bind_ok h
  cases h
  omega
theorem intersect_chunks_ends (dbg : Bool) (tab : Nat → List Nat) (m : Mem) (it_l it_r : It)
    (base : Nat) (x buf : List Nat) (out : Nat) :
    Ends (intersect_chunks dbg tab m it_l it_r base x buf out) := by
  unfold intersect_chunks
  refine Ends.bind (It.type_ends ..) (fun tl => Ends.bind (It.type_ends ..) (fun tr => ?_))
  dsimp only
  split
  · refine Ends.bind' (It.blocks_ends ..) (fun bl hbl => Ends.bind' (It.blocks_ends ..)
      (fun br hbr => ?_))
    have := It.blocks_pos hbl
    have := It.blocks_pos hbr
    split
    · exact Ends.map (ss_intersect_chunk_ends _ _ _ _ _ _ _ _ _ _ (by omega) (by omega))
    · exact Ends.map (ss_intersect_chunk_ends _ _ _ _ _ _ _ _ _ _ (by omega) (by omega))
  · ends
macro_rules | `(tactic| ends_lemma) => `(tactic| exact intersect_chunks_ends ..)

/-- `advance` keeps the end, never moves back, and ends on an id at least `lb`. -/
theorem It.advance_loop_post (m : Mem) (lb f : Nat) (it it' : It)
    (h : It.advance_loop m lb f it = .ok it') : it'.end_ = it.end_ ∧ it.begin_ ≤ it'.begin_ ∧
      (∀ i, it.id m = .ok i → it.has_next = true → i < lb → it.begin_ < it'.begin_) ∧
      (lb ≤ 65536 → ∀ i, it'.id m = .ok i → lb ≤ i) := by
  induction f generalizing it with
  | zero => cases h
  | succ f ih =>
    unfold It.advance_loop at h
    obtain ⟨i, hi, h⟩ := bind_ok h
    split at h
    · obtain ⟨it1, h1, h⟩ := bind_ok h
      obtain ⟨p1, p2⟩ := It.next_pos h1
      obtain ⟨a, b, c, d⟩ := ih _ h
      exact ⟨by omega, by omega, fun _ _ _ _ => by omega, d⟩
    · rename_i hc
      cases h
      refine ⟨rfl, Nat.le_refl _, fun j hj hn hlt => ?_, fun hlb j hj => ?_⟩
      · rw [hi] at hj
        cases hj
        exact absurd (by rw [hn, decide_eq_true hlt]; rfl) hc
      · rw [hi] at hj
        cases hj
        cases hn : it'.has_next with
        | true =>
          rw [hn, Bool.and_true, decide_eq_true_eq] at hc
          omega
        | false =>
          unfold It.id at hi
          rw [hn] at hi
          cases hi
          exact hlb
theorem It.skip_value_loop_post (m : Mem) (lb f : Nat) (it it' : It)
    (h : It.skip_value_loop m lb f it = .ok it') : it'.end_ = it.end_ ∧ it.begin_ ≤ it'.begin_ := by
  induction f generalizing it with
  | zero => cases h
  | succ f ih =>
    unfold It.skip_value_loop at h
    split at h
    · obtain ⟨x, -, h⟩ := bind_ok h
      split at h
      · obtain ⟨it1, h1, h⟩ := bind_ok h
        obtain ⟨p1, p2⟩ := It.jump_pos h1
        obtain ⟨a, b⟩ := ih _ h
        exact ⟨by omega, by omega⟩
      · cases h
        exact ⟨rfl, Nat.le_refl _⟩
    · cases h
      exact ⟨rfl, Nat.le_refl _⟩
theorem It.skip_to_value_post {m : Mem} {lb : Nat} {it it' : It}
    (h : it.skip_to_value m lb = .ok it') : it'.end_ = it.end_ ∧ it.begin_ ≤ it'.begin_ ∧
      (lb ≤ 65536 → ∀ i, it'.id m = .ok i → lb ≤ i) := by
  unfold It.skip_to_value at h
  obtain ⟨it1, h1, h⟩ := bind_ok h
  obtain ⟨a, b⟩ := It.skip_value_loop_post _ _ _ _ _ h1
  obtain ⟨c, d, -, e⟩ := It.advance_loop_post _ _ _ _ _ h
  exact ⟨by omega, by omega, e⟩
theorem It.id_le {m : Mem} {it : It} {i : Nat} (h : it.id m = .ok i) : i ≤ 65536 := by
  unfold It.id at h
  split at h
  · exact Nat.le_of_lt (rd16_lt h)
  · cases h; exact Nat.le_refl _
theorem It.id_lt {m : Mem} {it : It} {i : Nat} (h : it.id m = .ok i) (hn : it.has_next = true) :
    i < 65536 := by
  unfold It.id at h
  rw [hn] at h
  exact rd16_lt h
theorem It.has_next_of_id {m : Mem} {it : It} {i : Nat} (h : it.id m = .ok i) (hi : i < 65536) :
    it.has_next = true := by
  unfold It.id at h
  split at h
  · assumption
  · cases h; exact absurd hi (by decide)

theorem pairwise_intersection_loop_ends (dbg : Bool) (tab : Nat → List Nat) (m : Mem) (f : Nat)
    (it_l it_r : It) (x buf : List Nat) (out : Nat)
    (hf : (it_l.end_ - it_l.begin_) + (it_r.end_ - it_r.begin_) < f) :
    Ends (pairwise_intersection_loop dbg tab m f it_l it_r x buf out) := by
  induction f generalizing it_l it_r x buf out with
  | zero => omega
  | succ f ih =>
    unfold pairwise_intersection_loop
    split
    · rename_i h
      obtain ⟨hl, hr⟩ := Bool.and_eq_true_iff.mp h
      have hl' := (It.has_next_iff _).mp hl
      have hr' := (It.has_next_iff _).mp hr
      refine Ends.bind' (It.id_ends ..) (fun i_l e_l => Ends.bind' (It.id_ends ..)
        (fun i_r e_r => ?_))
      have il := It.id_lt e_l hl
      have ir := It.id_lt e_r hr
      have ul : u16 i_l = i_l := Nat.mod_eq_of_lt il
      have ur : u16 i_r = i_r := Nat.mod_eq_of_lt ir
      dsimp only
      rw [ul, ur]
      split
      · refine Ends.bind (intersect_chunks_ends ..) (fun r => Ends.bind' (It.next_ends ..)
          (fun l' h1 => Ends.bind' (It.next_ends ..) (fun r' h2 => ?_)))
        obtain ⟨_, _⟩ := It.next_pos h1
        obtain ⟨_, _⟩ := It.next_pos h2
        exact ih _ _ _ _ _ (by omega)
      · split
        · rename_i hlt
          refine Ends.bind' (It.advance_ends ..) (fun l' h1 => ?_)
          obtain ⟨_, _, h3, _⟩ := It.advance_loop_post _ _ _ _ _ h1
          have := h3 _ e_l hl hlt
          exact ih _ _ _ _ _ (by omega)
        · refine Ends.bind' (It.advance_ends ..) (fun l' h1 => ?_)
          obtain ⟨_, _, h3, _⟩ := It.advance_loop_post _ _ _ _ _ h1
          have := h3 _ e_r hr (by omega)
          exact ih _ _ _ _ _ (by omega)
    · exact Ends.ok _
theorem pairwise_intersection_ends (dbg : Bool) (tab : Nat → List Nat) (m : Mem) (l r : SSeq)
    (x buf : List Nat) (out : Nat) : Ends (pairwise_intersection dbg tab m l r x buf out) := by
  unfold pairwise_intersection
  refine Ends.bind (pairwise_intersection_loop_ends _ _ _ _ _ _ _ _ _ ?_) (fun _ => Ends.pure _)
  show l.chunks - 0 + (r.chunks - 0) < l.chunks + r.chunks + 1
  omega

/-! ## pairwise union -/

theorem ss_union_block_loop_ends (m : Mem) (end_l end_r base out f l r size : Nat) (buf : List Nat)
    (hl : l < end_l) (hr : r < end_r) (hf : (end_l - l) + (end_r - r) < f) :
    Ends (ss_union_block_loop m end_l end_r base out f l r size buf) := by
  induction f generalizing l r size buf with
  | zero => omega
  | succ f ih =>
    unfold ss_union_block_loop
    refine Ends.bind (rd8_ends ..) (fun x => Ends.bind (rd8_ends ..) (fun y => ?_))
    split
    · refine Ends.bind (wr_ends ..) (fun buf => ?_)
      split
      · exact Ends.pure _
      · exact ih _ _ _ _ (by omega) (by omega) (by omega)
    · split
      · refine Ends.bind (wr_ends ..) (fun buf => ?_)
        split
        · exact Ends.pure _
        · exact ih _ _ _ _ (by omega) (by omega) (by omega)
      · refine Ends.bind (wr_ends ..) (fun buf => ?_)
        split
        · exact Ends.pure _
        · rename_i h
          have := not_or.mp h
          exact ih _ _ _ _ (by omega) (by omega) (by omega)
theorem ss_union_block_ends (dbg : Bool) (m : Mem) (l r cl cr base : Nat) (buf : List Nat)
    (out : Nat) : Ends (ss_union_block dbg m l r (cl + 1) (cr + 1) base buf out) := by
  unfold ss_union_block
  refine Ends.bind (Ends.cassert ..) (fun _ => Ends.bind (Ends.cassert ..) (fun _ => ?_))
  dsimp only
  refine Ends.bind (ss_union_block_loop_ends _ _ _ _ _ _ _ _ _ _ (by omega) (by omega) (by omega))
    (fun q => ?_)
  ends
macro_rules | `(tactic| ends_lemma) => `(tactic| exact ss_union_block_ends ..)
theorem ds_union_block_ends (m : Mem) (l r c base : Nat) (x buf : List Nat) (out : Nat) :
    Ends (ds_union_block m l r (c + 1) base x buf out) := by
  unfold ds_union_block
  refine EndsP.bindE (memcpy_words_low _ _ _ _ _ (Low.nil _)) (fun x hx => ?_)
  refine EndsP.bindE (uncompress_sparse_block_ends _ _ _ _ _ (hx.mono (n := 4) (by decide)))
    (fun x hx => ?_)
  exact Ends.bind (or_bitmaps_ends (memWords_ends _ _ _) (vecWords_ends hx) ..) (fun _ => Ends.pure _)
macro_rules | `(tactic| ends_lemma) => `(tactic| exact ds_union_block_ends ..)
theorem decode_block_ends (m : Mem) (data t c base : Nat) (buf : List Nat) (out : Nat) :
    Ends (decode_block m data t c base buf out) := by unfold decode_block; ends
macro_rules | `(tactic| ends_lemma) => `(tactic| exact decode_block_ends ..)
theorem decode_macro_ends (m : Mem) (base ptr data : Nat) (buf : List Nat) (out : Nat) :
    EndsP (fun r => r.2.2.2 = ptr + 2) (decode_macro m base ptr data buf out) := by
  unfold decode_macro
  exact EndsP.bind (rd8_ends ..) (fun _ => EndsP.bind (rd8_ends ..) (fun _ =>
    EndsP.bind (decode_block_ends ..) (fun _ => EndsP.pure rfl)))
theorem union_blocks_ends (dbg : Bool) (m : Mem) (data_l data_r cl cr b : Nat) (x4 buf : List Nat)
    (out : Nat) : Ends (union_blocks dbg m data_l data_r (cl + 1) (cr + 1) b x4 buf out) := by
  unfold union_blocks; ends
macro_rules | `(tactic| ends_lemma) => `(tactic| exact union_blocks_ends ..)

theorem ss_union_chunk_loop_ends (dbg : Bool) (m : Mem) (end_l end_r base f nl nr : Nat) (s : UState)
    (hl : s.l + 2 * (nl + 1) = end_l) (hr : s.r + 2 * (nr + 1) = end_r) (hf : nl + nr + 2 < f) :
    EndsP (fun t => (∃ k, t.l + 2 * k = end_l ∧ k ≤ nl + 1) ∧ ∃ k, t.r + 2 * k = end_r ∧ k ≤ nr + 1)
      (ss_union_chunk_loop dbg m end_l end_r base f s) := by
  induction f generalizing nl nr s with
  | zero => omega
  | succ f ih =>
    unfold ss_union_chunk_loop
    refine EndsP.bind (rd8_ends ..) (fun x => EndsP.bind (rd8_ends ..) (fun y => ?_))
    split
    · refine EndsP.bindP (decode_macro_ends ..) (fun q hq => ?_)
      obtain ⟨o, bf, dt, pt⟩ := q
      dsimp only at hq ⊢
      split
      · rename_i h
        exact EndsP.pure ⟨⟨0, by dsimp only; omega, by omega⟩, ⟨nr + 1, hr, by omega⟩⟩
      · rename_i h
        have ih := ih (nl - 1) nr { s with
          l := pt, data_l := dt, out := o, buf := bf }
          (by dsimp only; omega) hr (by omega)
        refine ⟨ih.ends, fun t ht => ?_⟩
        obtain ⟨⟨k1, a1, a2⟩, b⟩ := ih.post t ht
        exact ⟨⟨k1, a1, by omega⟩, b⟩
    · split
      · refine EndsP.bindP (decode_macro_ends ..) (fun q hq => ?_)
        obtain ⟨o, bf, dt, pt⟩ := q
        dsimp only at hq ⊢
        split
        · rename_i h
          exact EndsP.pure ⟨⟨nl + 1, hl, by omega⟩, ⟨0, by dsimp only; omega, by omega⟩⟩
        · rename_i h
          have ih := ih nl (nr - 1) { s with
            r := pt, data_r := dt, out := o, buf := bf }
            hl (by dsimp only; omega) (by omega)
          refine ⟨ih.ends, fun t ht => ?_⟩
          obtain ⟨a, ⟨k1, b1, b2⟩⟩ := ih.post t ht
          exact ⟨a, ⟨k1, b1, by omega⟩⟩
      · refine EndsP.bind (rd8_ends ..) (fun cl => EndsP.bind (rd8_ends ..) (fun cr =>
          EndsP.bind (union_blocks_ends ..) (fun q => ?_)))
        dsimp only
        split
        · exact EndsP.pure ⟨⟨nl, by dsimp only; omega, by omega⟩, ⟨nr, by dsimp only; omega, by omega⟩⟩
        · rename_i h
          have h := not_or.mp h
          have ih := ih (nl - 1) (nr - 1) {
            l := s.l + 2, data_l := s.data_l + bytes_by_cardinality (cl + 1),
            r := s.r + 2, data_r := s.data_r + bytes_by_cardinality (cr + 1),
            out := s.out + q.1, x4 := q.2.1, buf := q.2.2 }
            (by dsimp only; omega) (by dsimp only; omega) (by omega)
          refine ⟨ih.ends, fun t ht => ?_⟩
          obtain ⟨⟨k1, a1, a2⟩, ⟨k2, b1, b2⟩⟩ := ih.post t ht
          exact ⟨⟨k1, a1, by omega⟩, ⟨k2, b1, by omega⟩⟩
theorem decode_rest_ends (m : Mem) (end_ base f n ptr data : Nat) (buf : List Nat) (out : Nat)
    (he : ptr + 2 * n = end_) (hf : n < f) : Ends (decode_rest m end_ base f ptr data buf out) := by
  induction f generalizing n ptr data buf out with
  | zero => omega
  | succ f ih =>
    unfold decode_rest
    split
    · refine EndsP.bindE (decode_macro_ends ..) (fun q hq => ?_)
      obtain ⟨o, bf, dt, pt⟩ := q
      dsimp only at hq ⊢
      exact ih (n - 1) _ _ _ _ (by omega) (by omega)
    · exact Ends.ok _
theorem ss_union_chunk_ends (dbg : Bool) (m : Mem) (l r bl br base : Nat) (x4 buf : List Nat)
    (out : Nat) (hl : 0 < bl) (hr : 0 < br) :
    Ends (ss_union_chunk dbg m l r bl br base x4 buf out) := by
  unfold ss_union_chunk
  refine Ends.bind (Ends.cassert ..) (fun _ => Ends.bind (Ends.cassert ..) (fun _ => ?_))
  refine EndsP.bindE (ss_union_chunk_loop_ends _ _ _ _ _ _ (bl - 1) (br - 1) _
    (by dsimp only; omega) (by dsimp only; omega) (by omega)) (fun s hs => ?_)
  obtain ⟨⟨k1, a1, a2⟩, ⟨k2, b1, b2⟩⟩ := hs
  refine Ends.bind (decode_rest_ends _ _ _ _ k1 _ _ _ _ a1 (by omega)) (fun _ => ?_)
  exact Ends.bind (decode_rest_ends _ _ _ _ k2 _ _ _ _ b1 (by omega)) (fun _ => Ends.pure _)
theorem ds_union_chunk_ends (dbg : Bool) (m : Mem) (l r blocks_r base : Nat) (x buf : List Nat)
    (out : Nat) : Ends (ds_union_chunk dbg m l r blocks_r base x buf out) := by
  unfold ds_union_chunk
  exact EndsP.bindE (uncompress_sparse_chunk_ends _ _ _ _ _ _ (Low.zeros _ _)) (fun x hx =>
    Ends.bind (or_bitmaps_ends (memWords_ends _ _ _) (vecWords_ends hx) ..) (fun _ => Ends.pure _))
macro_rules | `(tactic| ends_lemma) => `(tactic| exact ds_union_chunk_ends ..)
theorem union_chunks_ends (dbg : Bool) (m : Mem) (it_l it_r : It) (base : Nat) (s : UScratch)
    (buf : List Nat) (out : Nat) : Ends (union_chunks dbg m it_l it_r base s buf out) := by
  unfold union_chunks
  refine Ends.bind (It.type_ends ..) (fun tl => Ends.bind (It.type_ends ..) (fun tr => ?_))
  dsimp only
  split
  · refine Ends.bind' (It.blocks_ends ..) (fun bl hbl => Ends.bind' (It.blocks_ends ..)
      (fun br hbr => ?_))
    have := It.blocks_pos hbl
    have := It.blocks_pos hbr
    split
    · exact Ends.map (ss_union_chunk_ends _ _ _ _ _ _ _ _ _ _ (by omega) (by omega))
    · exact Ends.map (ss_union_chunk_ends _ _ _ _ _ _ _ _ _ _ (by omega) (by omega))
  · ends
theorem pairwise_union_loop_ends (dbg : Bool) (m : Mem) (f : Nat) (it_l it_r : It) (s : UScratch)
    (buf : List Nat) (out : Nat)
    (hf : (it_l.end_ - it_l.begin_) + (it_r.end_ - it_r.begin_) < f) :
    EndsP (fun q => q.1.end_ = it_l.end_ ∧ q.2.1.end_ = it_r.end_)
      (pairwise_union_loop dbg m f it_l it_r s buf out) := by
  induction f generalizing it_l it_r s buf out with
  | zero => omega
  | succ f ih =>
    unfold pairwise_union_loop
    refine EndsP.bind (It.id_ends ..) (fun i_l => EndsP.bind (It.id_ends ..) (fun i_r => ?_))
    dsimp only
    split
    · refine EndsP.bind (union_chunks_ends ..) (fun r => EndsP.bind' (It.next_ends ..)
        (fun l' h1 => EndsP.bind' (It.next_ends ..) (fun r' h2 => ?_)))
      obtain ⟨_, _⟩ := It.next_pos h1
      obtain ⟨_, _⟩ := It.next_pos h2
      split
      · exact EndsP.pure ⟨by assumption, by assumption⟩
      · rename_i h
        simp only [Bool.or_eq_true, Bool.not_eq_true', not_or, Bool.not_eq_false,
          It.has_next_iff] at h
        have ih := ih l' r' r.2.1 r.2.2 (out + r.1) (by omega)
        exact ⟨ih.ends, fun q hq => ⟨by have := (ih.post q hq).1; omega,
          by have := (ih.post q hq).2; omega⟩⟩
    · split
      · refine EndsP.bind (decode_chunk_ends ..) (fun r => EndsP.bind' (It.next_ends ..)
          (fun l' h1 => ?_))
        obtain ⟨_, _⟩ := It.next_pos h1
        split
        · exact EndsP.pure ⟨by assumption, rfl⟩
        · rename_i h
          simp only [Bool.not_eq_true', Bool.not_eq_false, It.has_next_iff] at h
          have ih := ih l' it_r s r.2 (out + r.1) (by omega)
          exact ⟨ih.ends, fun q hq => ⟨by have := (ih.post q hq).1; omega,
            by have := (ih.post q hq).2; omega⟩⟩
      · refine EndsP.bind (decode_chunk_ends ..) (fun r => EndsP.bind' (It.next_ends ..)
          (fun r' h1 => ?_))
        obtain ⟨_, _⟩ := It.next_pos h1
        split
        · exact EndsP.pure ⟨rfl, by assumption⟩
        · rename_i h
          simp only [Bool.not_eq_true', Bool.not_eq_false, It.has_next_iff] at h
          have ih := ih it_l r' s r.2 (out + r.1) (by omega)
          exact ⟨ih.ends, fun q hq => ⟨by have := (ih.post q hq).1; omega,
            by have := (ih.post q hq).2; omega⟩⟩
theorem decode_tail_ends (dbg : Bool) (m : Mem) (f : Nat) (it : It) (buf : List Nat) (out : Nat)
    (hf : it.end_ - it.begin_ < f) : Ends (decode_tail dbg m f it buf out) := by
  induction f generalizing it buf out with
  | zero => omega
  | succ f ih =>
    unfold decode_tail
    split
    · rename_i h
      rw [It.has_next_iff] at h
      refine Ends.bind (decode_chunk_ends ..) (fun r => Ends.bind' (It.next_ends ..) (fun it' h1 => ?_))
      obtain ⟨_, _⟩ := It.next_pos h1
      exact ih _ _ _ (by omega)
    · exact Ends.ok _
theorem pairwise_union_ends (dbg : Bool) (m : Mem) (l r : SSeq) (s : UScratch) (buf : List Nat)
    (out : Nat) : Ends (pairwise_union dbg m l r s buf out) := by
  unfold pairwise_union
  have h : (l.begin.end_ - l.begin.begin_) + (r.begin.end_ - r.begin.begin_)
      < l.chunks + r.chunks + 1 := by
    show l.chunks - 0 + (r.chunks - 0) < l.chunks + r.chunks + 1
    omega
  refine EndsP.bindE (pairwise_union_loop_ends _ _ _ _ _ _ _ _ h) (fun q hq => ?_)
  obtain ⟨ql, qr, o, s', b⟩ := q
  have h1 : ql.end_ = l.chunks := hq.1
  have h2 : qr.end_ = r.chunks := hq.2
  refine Ends.bind (decode_tail_ends _ _ _ _ _ _ (by omega)) (fun _ => ?_)
  exact Ends.bind (decode_tail_ends _ _ _ _ _ _ (by omega)) (fun _ => Ends.pure _)

/-! ## many-way intersection -/

theorem and_words_loop_ends {N : Nat} {b : Words} (n i c : Nat) (out : List Nat)
    (hb : ∀ i, Ends (b i)) (h : Low N out) :
    EndsP (fun r => Low N r.2) (and_words_loop b n i c out) := by
  induction n generalizing i c out with
  | zero => exact EndsP.ok h
  | succ n ih =>
    unfold and_words_loop
    refine EndsP.bind (hb i) (fun y => EndsP.bind' (rdv_ends ..) (fun x hx => ?_))
    exact EndsP.bindP (wr_low h (fun hi => Nat.lt_of_le_of_lt Nat.and_le_left (h _ _ hi (rdv_eq hx))))
      (fun _ h => ih _ _ _ h)
theorem uncompress_chunk_and_intersect_ends {N : Nat} (dbg : Bool) (m : Mem) (it : It)
    (tmp bitmap : List Nat) (c : Nat) (h : Low N bitmap) :
    EndsP (fun r => Low N r.2.2) (uncompress_chunk_and_intersect dbg m it tmp bitmap c) := by
  unfold uncompress_chunk_and_intersect
  refine EndsP.bind (It.type_ends ..) (fun t => ?_)
  split
  · refine EndsP.bind (It.blocks_ends ..) (fun b => ?_)
    unfold uncompress_sparse_chunk_and_intersect
    refine EndsP.bindP (uncompress_sparse_chunk_ends _ _ _ _ _ _ (Low.nil _)) (fun x _ => ?_)
    exact EndsP.bindP (and_words_loop_ends _ _ _ _ (fun _ => rdv_ends ..) h) (fun r hr => EndsP.pure hr)
  · split
    · exact EndsP.bindP (and_words_loop_ends _ _ _ _ (fun _ => rd64_ends ..) h)
        (fun r hr => EndsP.pure hr)
    · split
      · exact EndsP.pure h
      · exact EndsP.unreachable _
theorem intersect_rest_ends {N : Nat} (dbg : Bool) (m : Mem) (header n i : Nat) (its : List It)
    (tmp bitmap : List Nat) (c : Nat) (h : Low N bitmap) :
    EndsP (fun r => Low N r.2.2.2) (intersect_rest dbg m header n i its tmp bitmap c) := by
  induction n generalizing i its tmp bitmap c with
  | zero => exact EndsP.ok h
  | succ n ih =>
    unfold intersect_rest
    refine EndsP.bind (rdIt_ends ..) (fun it => EndsP.bind (It.advance_ends ..) (fun it =>
      EndsP.bind (It.id_ends ..) (fun id => EndsP.bind (Ends.cassert ..) (fun _ => ?_))))
    refine EndsP.bindP (uncompress_chunk_and_intersect_ends _ _ _ _ _ _ h) (fun r hr => ?_)
    dsimp only
    split
    · exact EndsP.pure hr
    · exact ih _ _ _ _ _ hr
theorem intersect_headers_ends (dbg : Bool) (m : Mem) (n i : Nat) (its : List It) (s : IScratch)
    (buf : List Nat) (out : Nat) : Ends (intersect_headers dbg m n i its s buf out) := by
  induction n generalizing i its s buf out with
  | zero => exact Ends.ok _
  | succ n ih =>
    unfold intersect_headers
    refine Ends.bind (rdv_ends ..) (fun header => Ends.bind (rdIt_ends ..) (fun it =>
      Ends.bind (It.advance_ends ..) (fun it => Ends.bind (It.id_ends ..) (fun id =>
      Ends.bind (Ends.cassert ..) (fun _ => ?_)))))
    refine EndsP.bindE (uncompress_chunk_low ..) (fun r hr => ?_)
    refine EndsP.bindE (intersect_rest_ends _ _ _ _ _ _ _ _ _ hr) (fun q hq => ?_)
    dsimp only
    split
    · exact ih ..
    · exact Ends.bind (decode_bitmap_ends (vecWords_ends hq) ..) (fun _ => ih ..)

theorem rdIt_eq {v : List It} {i : Nat} {x : It} (h : rdIt v i = .ok x) : v[i]? = some x := by
  unfold rdIt at h
  cases e : v[i]? with
  | none => rw [e] at h; cases h
  | some y => rw [e] at h; cases h; rfl

/-- The `for` loop of the candidate search either meets an iterator whose id is above the candidate,
or leaves all iterators on the candidate. -/
theorem candidate_for_ends (m : Mem) (f : Nat) (its : List It) (candidate i : Nat) (it0 : It)
    (h0 : its[0]? = some it0) (hc : candidate < 65536) (hf : its.length - i < f)
    (hi : i = 0 ∨ (i ≤ its.length ∧ it0.id m = .ok candidate)) :
    EndsP (fun q => ∃ it0', q.1[0]? = some it0' ∧ it0'.end_ = it0.end_ ∧ it0.begin_ ≤ it0'.begin_ ∧
      q.1.length = its.length ∧
      ((q.2.2 = 0 ∧ candidate < q.2.1 ∧ q.2.1 ≤ 65536) ∨
        (q.2.2 = its.length ∧ it0'.id m = .ok candidate)))
      (candidate_for m f its candidate i) := by
  induction f generalizing its i it0 with
  | zero => omega
  | succ f ih =>
    unfold candidate_for
    have hlen : 0 < its.length := by
      have := (List.getElem?_eq_some_iff.mp h0).1
      omega
    split
    · rename_i hlt
      refine EndsP.bind' (rdIt_ends ..) (fun it h1 => EndsP.bind' (It.skip_to_value_ends ..)
        (fun it' h2 => ?_))
      dsimp only
      refine EndsP.bind' (It.id_ends ..) (fun val hv => ?_)
      have h1 := rdIt_eq h1
      obtain ⟨p1, p2, p3⟩ := It.skip_to_value_post h2
      have hge := p3 (by omega) val hv
      have hle := It.id_le hv
      have hset0 : ∃ it0', (its.set i it')[0]? = some it0' ∧ it0'.end_ = it0.end_ ∧
          it0.begin_ ≤ it0'.begin_ ∧ (i = 0 → it0' = it') ∧ (i ≠ 0 → it0' = it0) := by
        by_cases hz : i = 0
        · subst hz
          rw [h0] at h1
          cases h1
          exact ⟨it', by rw [List.getElem?_set_self hlen], p1, p2, fun _ => rfl, fun h => absurd rfl h⟩
        · exact ⟨it0, by rw [List.getElem?_set_ne hz, h0], rfl, Nat.le_refl _,
            fun h => absurd h hz, fun _ => rfl⟩
      obtain ⟨it0', q1, q2, q3, q4, q5⟩ := hset0
      split
      · exact EndsP.pure ⟨it0', q1, q2, q3, List.length_set, .inl ⟨rfl, by dsimp only; omega, hle⟩⟩
      · rename_i hne
        have hval : val = candidate := by
          rcases Nat.decEq val candidate with h | h
          · exact absurd h hne
          · exact h
        subst hval
        have ih := ih (its.set i it') (i + 1) it0' q1 (by rw [List.length_set]; omega) (.inr
          ⟨by rw [List.length_set]; omega, by
            by_cases hz : i = 0
            · rw [q4 hz]; exact hv
            · rw [q5 hz]
              rcases hi with h | h
              · exact absurd h hz
              · exact h.2⟩)
        refine ⟨ih.ends, fun q hq => ?_⟩
        obtain ⟨z, z1, z2, z3, z4, z5⟩ := ih.post q hq
        rw [List.length_set] at z4 z5
        exact ⟨z, z1, by omega, by omega, z4, z5⟩
    · rename_i hlt
      rcases hi with h | h
      · omega
      · exact EndsP.pure ⟨it0, h0, rfl, Nat.le_refl _, rfl, .inr ⟨by dsimp only; omega, h.2⟩⟩

theorem candidate_while_ends {K : Nat} (hK : 65536 < K) (m : Mem) (f : Nat) (its : List It) (candidate i : Nat)
    (headers : List Nat) (num_headers : Nat) (it0 : It) (h0 : its[0]? = some it0)
    (hc : candidate ≤ 65536) (hi : i = 0 ∨ (i ≤ its.length ∧ it0.id m = .ok candidate))
    (hf : (it0.end_ - it0.begin_) * K + (65536 - candidate) < f) :
    Ends (candidate_while m f its candidate i headers num_headers) := by
  induction f generalizing its candidate i headers num_headers it0 with
  | zero => omega
  | succ f ih =>
    unfold candidate_while
    split
    · rename_i hlt
      refine EndsP.bindE (candidate_for_ends m _ its candidate i it0 h0 hlt (by omega) hi)
        (fun q hq => ?_)
      obtain ⟨its', c', i'⟩ := q
      obtain ⟨it0', q1, q2, q3, q4, q5⟩ := hq
      dsimp only at q1 q4 q5 ⊢
      have hlen : 0 < its.length := by
        have := (List.getElem?_eq_some_iff.mp h0).1
        omega
      have hmul : (it0'.end_ - it0'.begin_) * K ≤ (it0.end_ - it0.begin_) * K :=
        Nat.mul_le_mul_right _ (by omega)
      rcases q5 with ⟨z1, z2, z3⟩ | ⟨z1, z2⟩
      · have hne : ¬ i' = its'.length := by omega
        rw [if_neg hne]
        exact ih _ _ _ _ _ it0' q1 z3 (.inl z1) (by omega)
      · have he : i' = its'.length := by omega
        rw [if_pos he]
        refine Ends.bind (wr_ends ..) (fun hs => Ends.bind' (rdIt_ends ..) (fun it h1 =>
          Ends.bind' (It.next_ends ..) (fun it' h2 => Ends.bind' (It.id_ends ..) (fun c hc' => ?_))))
        have h1 := rdIt_eq h1
        rw [q1] at h1
        cases h1
        obtain ⟨n1, n2⟩ := It.next_pos h2
        have hn := (It.has_next_iff _).mp (It.has_next_of_id z2 hlt)
        have hmul : (it'.end_ - it'.begin_) * K + K ≤ (it0.end_ - it0.begin_) * K := by
          have : (it'.end_ - it'.begin_ + 1) * K ≤ (it0.end_ - it0.begin_) * K :=
            Nat.mul_le_mul_right _ (by omega)
          rw [Nat.succ_mul] at this
          exact this
        exact ih _ _ _ _ _ it' (by rw [List.getElem?_set_self (by omega)]) (It.id_le hc')
          (.inr ⟨by rw [List.length_set]; omega, hc'⟩) (by omega)
    · exact Ends.pure _
theorem intersection_sorted_ends (dbg : Bool) (m : Mem) (ss : List SSeq) (s : IScratch)
    (buf : List Nat) (out : Nat) : Ends (intersection_sorted dbg m ss s buf out) := by
  unfold intersection_sorted
  refine Ends.bind' (rdIt_ends ..) (fun it0 h0 => Ends.bind' (It.id_ends ..) (fun c hc => ?_))
  have h0 := rdIt_eq h0
  have hlen := (List.getElem?_eq_some_iff.mp h0).1
  refine Ends.bind (candidate_while_ends (K := 65537) (by decide) _ _ _ _ _ _ _ it0 h0 (It.id_le hc)
    (.inr ⟨by omega, hc⟩) ?_) (fun q => ?_)
  · generalize hK : 65537 = K
    have : (it0.end_ - it0.begin_) * K ≤ it0.end_ * K := Nat.mul_le_mul_right _ (by omega)
    rw [Nat.succ_mul]
    omega
  · exact Ends.bind (intersect_headers_ends ..) (fun _ => Ends.pure _)
theorem intersection_ends (dbg : Bool) (sort : (SSeq → Nat) → List SSeq → List SSeq) (m : Mem)
    (ss : List SSeq) (s : IScratch) (buf : List Nat) (out : Nat) :
    Ends (intersection dbg sort m ss s buf out) := by
  unfold intersection
  refine Ends.bind (mapM_ends _ (fun q => ?_) _) (fun keys => ?_)
  · ends
  · exact Ends.bind (intersection_sorted_ends ..) (fun _ => Ends.pure _)

/-! ## many-way union -/

theorem or_words_loop_ends {N : Nat} {b : Words} (n i : Nat) (out : List Nat)
    (hb : WEnds b (i + n)) (h : Low N out) : EndsP (Low N) (or_words_loop b n i out) := by
  induction n generalizing i out with
  | zero => exact EndsP.ok h
  | succ n ih =>
    unfold or_words_loop
    refine EndsP.bind' (hb i (by omega)).1 (fun y hy => EndsP.bind' (rdv_ends ..) (fun x hx => ?_))
    exact EndsP.bindP (wr_low h (fun hi =>
      Nat.or_lt_two_pow (n := 64) (h _ _ hi (rdv_eq hx)) ((hb i (by omega)).2 y hy)))
      (fun _ h => ih _ _ (by rw [show i + 1 + n = i + (n + 1) by omega]; exact hb) h)
theorem uncompress_chunk_and_merge_ends {N : Nat} (dbg : Bool) (m : Mem) (it : It)
    (tmp bitmap : List Nat) (h : Low N bitmap) :
    EndsP (fun r => Low N r.2) (uncompress_chunk_and_merge dbg m it tmp bitmap) := by
  unfold uncompress_chunk_and_merge
  refine EndsP.bind (It.type_ends ..) (fun t => ?_)
  split
  · refine EndsP.bind (It.blocks_ends ..) (fun b => ?_)
    unfold uncompress_sparse_chunk_and_merge
    refine EndsP.bindP (uncompress_sparse_chunk_ends _ _ _ _ _ _ (Low.zeros (0 + 1024) _)) (fun x hx => ?_)
    exact EndsP.bindP (or_words_loop_ends _ _ _ (vecWords_ends hx) h) (fun r hr => EndsP.pure hr)
  · split
    · exact EndsP.bindP (or_words_loop_ends _ _ _ (memWords_ends _ _ _) h)
        (fun r hr => EndsP.pure hr)
    · split
      · refine EndsP.bindP (wrs_ends_low _ _ _ h ?_) (fun r hr => EndsP.pure hr)
        intro v hv
        rw [List.eq_of_mem_replicate hv]
        decide
      · exact EndsP.unreachable _
theorem merge_loop_ends (dbg : Bool) (m : Mem) (header : Nat) (its : List It) (first : Bool)
    (s : MScratch) (h : first = false → Low 1024 s.bitmap)
    (hx : first = true → ∃ it ∈ its, it.id m = .ok header) :
    EndsP (fun r => Low 1024 r.2.bitmap) (merge_loop dbg m header its first s) := by
  induction its generalizing first s with
  | nil =>
    cases first with
    | true => obtain ⟨_, h, _⟩ := hx rfl; cases h
    | false => exact EndsP.ok (h rfl)
  | cons it its ih =>
    unfold merge_loop
    refine EndsP.bind' (It.id_ends ..) (fun i hi => ?_)
    split
    · split
      · refine EndsP.bindP (uncompress_chunk_low ..) (fun r hr => ?_)
        exact ih _ _ (fun _ => hr) (fun h => nomatch h)
      · rename_i hf
        have hf : first = false := by cases first with
          | true => exact absurd rfl hf
          | false => rfl
        refine EndsP.bindP (uncompress_chunk_and_merge_ends _ _ _ _ _ (h hf)) (fun r hr => ?_)
        exact ih _ _ (fun _ => hr) (fun h => by rw [hf] at h; cases h)
    · rename_i hne
      refine ih _ _ h (fun hf => ?_)
      obtain ⟨it', hm, hid⟩ := hx hf
      rcases List.mem_cons.mp hm with e | e
      · subst e
        rw [hi] at hid
        cases hid
        exact absurd rfl hne
      · exact ⟨it', e, hid⟩

/-- what is left of the iterators -/
def left (its : List It) : Nat := (its.map (fun it => it.end_ - it.begin_)).sum

theorem step_loop_ends (m : Mem) (header : Nat) (its : List It) (next : Nat)
    (hh : header < 65536) (hn : next ≤ 65536) :
    EndsP (fun r => left r.1 ≤ left its ∧ ((∃ it ∈ its, it.id m = .ok header) → left r.1 < left its) ∧
      r.2 ≤ 65536 ∧ (r.2 = next ∨ ∃ it ∈ r.1, it.id m = .ok r.2)) (step_loop m header its next) := by
  induction its generalizing next with
  | nil => exact EndsP.ok ⟨Nat.le_refl _, (fun ⟨_, h, _⟩ => nomatch h), hn, .inl rfl⟩
  | cons it its ih =>
    unfold step_loop
    refine EndsP.bind' (It.id_ends ..) (fun i hi => ?_)
    have key : ∀ it' : It, (it'.end_ = it.end_ ∧ (it'.begin_ = it.begin_ ∧ i ≠ header ∨
        (it'.begin_ = it.begin_ + 1 ∧ it.begin_ < it.end_))) →
        EndsP (fun r => left r.1 ≤ left (it :: its) ∧
          ((∃ it_1 ∈ it :: its, it_1.id m = .ok header) → left r.1 < left (it :: its)) ∧
          r.2 ≤ 65536 ∧ (r.2 = next ∨ ∃ it ∈ r.1, it.id m = .ok r.2)) (do
          let j ← it'.id m
          let (its, next) ← step_loop m header its (if j < next then j else next)
          pure (it' :: its, next)) := by
      intro it' hit
      refine EndsP.bind' (It.id_ends ..) (fun j hj => ?_)
      have hj' := It.id_le hj
      have hmin : (if j < next then j else next) ≤ 65536 := by split <;> omega
      refine EndsP.bindP (ih _ hmin) (fun r hr => ?_)
      obtain ⟨a, b, c, d⟩ := hr
      have e1 : left (it' :: r.1) = (it'.end_ - it'.begin_) + left r.1 := rfl
      have e2 : left (it :: its) = (it.end_ - it.begin_) + left its := rfl
      refine EndsP.pure ⟨by dsimp only; omega, fun ⟨t, ht, hid⟩ => ?_, c, ?_⟩
      · dsimp only
        rcases hit.2 with ⟨h1, h2⟩ | ⟨h1, h2⟩
        · rcases List.mem_cons.mp ht with e | e
          · subst e
            rw [hi] at hid
            cases hid
            exact absurd rfl h2
          · have := b ⟨t, e, hid⟩
            omega
        · omega
      · dsimp only
        rcases d with d | ⟨t, ht, hid⟩
        · split at d
          · exact .inr ⟨it', List.mem_cons_self .., by rw [d]; exact hj⟩
          · exact .inl d
        · exact .inr ⟨t, List.mem_cons_of_mem _ ht, hid⟩
    split
    · rename_i he
      refine EndsP.bind' (It.next_ends ..) (fun it' h' => key it' ?_)
      obtain ⟨p1, p2⟩ := It.next_pos h'
      have := (It.has_next_iff _).mp (It.has_next_of_id hi (by omega))
      exact ⟨p2, .inr ⟨p1, this⟩⟩
    · rename_i he
      rw [pure_bind]
      exact key it ⟨rfl, .inl ⟨rfl, he⟩⟩
theorem union_many_loop_ends (dbg : Bool) (m : Mem) (f : Nat) (its : List It) (header : Nat)
    (s : MScratch) (buf : List Nat) (out : Nat)
    (hh : header < 65536 → ∃ it ∈ its, it.id m = .ok header) (hf : left its < f) :
    Ends (union_many_loop dbg m f its header s buf out) := by
  induction f generalizing its header s buf out with
  | zero => omega
  | succ f ih =>
    unfold union_many_loop
    split
    · rename_i hlt
      refine EndsP.bindE (merge_loop_ends _ _ _ _ _ _ (fun h => nomatch h) (fun _ => hh hlt))
        (fun r hr => ?_)
      refine Ends.bind (decode_bitmap_ends (vecWords_ends hr) ..) (fun q => ?_)
      refine EndsP.bindE (step_loop_ends _ _ _ _ hlt (Nat.le_refl _)) (fun p hp => ?_)
      obtain ⟨a, b, c, d⟩ := hp
      have := b (hh hlt)
      refine ih _ _ _ _ _ (fun hlt' => ?_) (by omega)
      rcases d with d | d
      · omega
      · exact d
    · exact Ends.ok _
theorem min_fold_ends (m : Mem) (its : List It) (best : Nat) :
    EndsP (fun h => h = best ∨ ∃ it ∈ its, it.id m = .ok h)
      (its.foldlM (fun best it => do
        let j ← it.id m
        return if j < best then j else best) best) := by
  induction its generalizing best with
  | nil => exact EndsP.pure (.inl rfl)
  | cons it its ih =>
    rw [List.foldlM_cons, bind_assoc]
    refine EndsP.bind' (It.id_ends ..) (fun j hj => ?_)
    rw [pure_bind]
    refine ⟨(ih _).ends, fun h e => ?_⟩
    rcases (ih _).post h e with e | ⟨t, ht, hid⟩
    · split at e
      · exact .inr ⟨it, List.mem_cons_self .., by rw [e]; exact hj⟩
      · exact .inl e
    · exact .inr ⟨t, List.mem_cons_of_mem _ ht, hid⟩
theorem min_id_ends (m : Mem) (its : List It) :
    EndsP (fun h => ∃ it ∈ its, it.id m = .ok h) (min_id m its) := by
  cases its with
  | nil => exact EndsP.ub
  | cons it its =>
    unfold min_id
    refine EndsP.bind' (It.id_ends ..) (fun i hi => ?_)
    refine ⟨(min_fold_ends ..).ends, fun h e => ?_⟩
    rcases (min_fold_ends ..).post h e with e | ⟨t, ht, hid⟩
    · exact ⟨it, List.mem_cons_self .., by rw [e]; exact hi⟩
    · exact ⟨t, List.mem_cons_of_mem _ ht, hid⟩
theorem left_le (its : List It) : left its ≤ (its.map It.end_).sum := by
  induction its with
  | nil => exact Nat.le_refl _
  | cons it its ih =>
    have : left (it :: its) = (it.end_ - it.begin_) + left its := rfl
    rw [List.map_cons, List.sum_cons]
    omega
theorem union_many_ends (dbg : Bool) (m : Mem) (ss : List SSeq) (s : MScratch) (buf : List Nat)
    (out : Nat) : Ends (union_many dbg m ss s buf out) := by
  unfold union_many
  refine EndsP.bindE (min_id_ends ..) (fun h hh => ?_)
  have := left_le (ss.map SSeq.begin)
  exact Ends.bind (union_many_loop_ends _ _ _ _ _ _ _ _ (fun _ => hh) (by omega)) (fun _ => Ends.pure _)

end Sliced
