import Verif.Proof.Bitmap
/-!
# Representation predicates

What the bytes of an encoded sequence mean: a list of chunks, each of which is full, a bitmap, or a
list of blocks.  (Internal to the proofs; the property theorems do not mention these.)
-/
namespace Sliced

/-- The byte at an address (0 if unreadable). -/
def byteAt (m : Mem) (a : Nat) : Nat := match m a with | some b => b.toNat | none => 0

theorem byteAt_lt (m : Mem) (a : Nat) : byteAt m a < 256 := by
  unfold byteAt; split
  · exact UInt8.toNat_lt _
  · omega

theorem rd8_byteAt {m : Mem} {a : Nat} (h : (m a).isSome = true) : rd8 m a = .ok (byteAt m a) := by
  obtain ⟨b, hb⟩ := Option.isSome_iff_exists.mp h
  rw [rd8_of hb]; simp [byteAt, hb]

theorem byteAt_of_rd8 {m : Mem} {a x : Nat} (h : rd8 m a = .ok x) : byteAt m a = x := by
  unfold rd8 at h; unfold byteAt
  split at h
  · rename_i b hb; cases h; simp [hb]
  · cases h

/-- A non-empty block of a sparse chunk: its number and its values (relative to the block). -/
structure Blk where
  id : Nat
  vals : List Nat
  deriving DecidableEq, Repr

def Blk.WF (b : Blk) : Prop :=
  b.id < 256 ∧ b.vals ≠ [] ∧ b.vals.Pairwise (· < ·) ∧ ∀ v ∈ b.vals, v < 256
/-- bytes of block data -/
def Blk.size (b : Blk) : Nat := bytes_by_cardinality b.vals.length
/-- values relative to the chunk -/
def Blk.elems (b : Blk) : List Nat := b.vals.map (b.id * 256 + ·)

def blkElems (bs : List Blk) : List Nat := bs.flatMap Blk.elems
def blkBytes (bs : List Blk) : Nat := (bs.map Blk.size).sum

def BlocksWF (bs : List Blk) : Prop := bs.Pairwise (fun a b => a.id < b.id) ∧ ∀ b ∈ bs, b.WF

/-- Block data at address `dp`; `pad` bytes after it can be read. -/
def BlkAt (pad : Nat) (m : Mem) (dp : Nat) (b : Blk) : Prop :=
  if b.vals.length < 31 then
    (∀ (i v : Nat), b.vals[i]? = some v → rd8 m (dp + i) = .ok v) ∧
      Readable m dp (b.vals.length + pad)
  else BitsAt (memWords m dp) 4 (fun x => decide (x ∈ b.vals))

/-- Block headers from `hp` on and block data from `dp` on. -/
def BlocksAt (pad : Nat) (m : Mem) : Nat → Nat → List Blk → Prop
  | hp, _, [] => ∃ x, rd8 m hp = .ok x
  | hp, dp, b :: bs =>
    rd8 m hp = .ok b.id ∧ rd8 m (hp + 1) = .ok (b.vals.length - 1) ∧ BlkAt pad m dp b ∧
      BlocksAt pad m (hp + 2) (dp + b.size) bs

/-- Contents of a chunk. -/
inductive Body where
  | full
  | dense (vals : List Nat)
  | sparse (bs : List Blk)
  deriving DecidableEq, Repr

/-- values relative to the chunk -/
def Body.vals : Body → List Nat
  | .full => List.range 65536
  | .dense vs => vs
  | .sparse bs => blkElems bs

/-- third half-word of the chunk header -/
def Body.packed : Body → Nat
  | .full => 2
  | .dense _ => 3
  | .sparse bs => 1 + 256 * (bs.length - 1)

/-- bytes of chunk data -/
def Body.off : Body → Nat
  | .full => 0
  | .dense _ => 8192
  | .sparse bs => 2 * bs.length + blkBytes bs

def Body.WF : Body → Prop
  | .full => True
  | .dense vs => vs ≠ [] ∧ vs.Pairwise (· < ·) ∧ ∀ v ∈ vs, v < 65536
  | .sparse bs => bs ≠ [] ∧ BlocksWF bs

def BodyAt (pad : Nat) (m : Mem) (dp : Nat) : Body → Prop
  | .full => True
  | .dense vs => BitsAt (memWords m dp) 1024 (fun x => decide (x ∈ vs))
  | .sparse bs => BlocksAt pad m dp (dp + 2 * bs.length) bs

/-- A non-empty chunk. -/
structure Chk where
  id : Nat
  body : Body
  deriving DecidableEq, Repr

def Chk.WF (c : Chk) : Prop := c.id < 65535 ∧ c.body.WF
def Chk.card (c : Chk) : Nat := c.body.vals.length
/-- values of the chunk as elements of the sequence -/
def Chk.elems (c : Chk) : List Nat := c.body.vals.map (c.id * 65536 + ·)

def seqElems (cs : List Chk) : List Nat := cs.flatMap Chk.elems

def ChunksWF (cs : List Chk) : Prop := cs.Pairwise (fun a b => a.id < b.id) ∧ ∀ c ∈ cs, c.WF

/-- The 8-byte header of chunk `c` at `hp`. -/
def HdrAt (m : Mem) (hp : Nat) (c : Chk) : Prop :=
  rd16 m hp = .ok c.id ∧ rd16 m (hp + 2) = .ok (c.card - 1) ∧
    rd16 m (hp + 4) = .ok c.body.packed ∧ rd16 m (hp + 6) = .ok c.body.off

/-- Chunk headers from `hp` on, chunk data from `dp` on; `B` says what is known about the data of a
chunk at an address. -/
def ChunksAtP (B : Nat → Chk → Prop) (m : Mem) : Nat → Nat → List Chk → Prop
  | _, _, [] => True
  | hp, dp, c :: cs => HdrAt m hp c ∧ B dp c ∧ ChunksAtP B m (hp + 8) (dp + c.body.off) cs

/-- The data of every chunk is its encoding, followed by `pad` readable bytes. -/
abbrev ChunksAt (pad : Nat) (m : Mem) : Nat → Nat → List Chk → Prop :=
  ChunksAtP (fun dp c => BodyAt pad m dp c.body) m

def cardSum (cs : List Chk) : Nat := (cs.map Chk.card).sum
def offSum (cs : List Chk) : Nat := (cs.map (fun c => c.body.off)).sum

/-- The skip pointers: one (cardinality, offset) pair for every complete group of 32 chunks. -/
def PtrsAt (m : Mem) (pp : Nat) (cs : List Chk) : Prop :=
  ∀ k, 32 * (k + 1) ≤ cs.length →
    rd32 m (pp + 8 * k) = .ok (cardSum ((cs.drop (32 * k)).take 32)) ∧
    rd32 m (pp + 8 * k + 4) = .ok (offSum ((cs.drop (32 * k)).take 32))

/-- A sequence object that gives access to the chunks `cs`. -/
structure SeqAtP (B : Nat → Chk → Prop) (m : Mem) (s : SSeq) (cs : List Chk) : Prop where
  chunks : s.chunks = cs.length
  ne : cs ≠ []
  wf : ChunksWF cs
  at_ : ChunksAtP B m s.header s.data cs
  ptrs : PtrsAt m s.pointers cs

abbrev SeqAt (pad : Nat) (m : Mem) : SSeq → List Chk → Prop :=
  SeqAtP (fun dp c => BodyAt pad m dp c.body) m

/-- An iterator with the chunks `cs` in front of it. -/
structure ItOnP (B : Nat → Chk → Prop) (m : Mem) (it : It) (cs : List Chk) : Prop where
  end_ : it.end_ = it.begin_ + cs.length
  wf : ChunksWF cs
  at_ : ChunksAtP B m it.header it.data cs

abbrev ItOn (pad : Nat) (m : Mem) : It → List Chk → Prop :=
  ItOnP (fun dp c => BodyAt pad m dp c.body) m

/-! ## Sortedness -/

theorem flatMap_sorted {α : Type} {L : List α} {key : α → Nat} {f : α → List Nat} (K : Nat)
    (hk : L.Pairwise (fun a b => key a < key b)) (hs : ∀ a ∈ L, (f a).Pairwise (· < ·))
    (hb : ∀ a ∈ L, ∀ x ∈ f a, key a * K ≤ x ∧ x < (key a + 1) * K) :
    (L.flatMap f).Pairwise (· < ·) := by
  induction L with
  | nil => simp
  | cons a L ih =>
    rw [List.pairwise_cons] at hk
    rw [List.flatMap_cons, List.pairwise_append]
    refine ⟨hs a (by simp), ih hk.2 (fun b hb' => hs b (by simp [hb']))
      (fun b hb' => hb b (by simp [hb'])), ?_⟩
    intro x hx y hy
    rw [List.mem_flatMap] at hy
    obtain ⟨b, hbL, hyb⟩ := hy
    have h1 := (hb a (by simp) x hx).2
    have h2 := (hb b (by simp [hbL]) y hyb).1
    have h3 := hk.1 b hbL
    have h4 : (key a + 1) * K ≤ key b * K := Nat.mul_le_mul_right _ h3
    omega

theorem Blk.WF.elems_sorted {b : Blk} (h : b.WF) : b.elems.Pairwise (· < ·) :=
  pairwise_map_add _ h.2.2.1

theorem Blk.WF.elems_bound {b : Blk} (h : b.WF) :
    ∀ x ∈ b.elems, b.id * 256 ≤ x ∧ x < (b.id + 1) * 256 := by
  intro x hx
  unfold Blk.elems at hx
  rw [List.mem_map] at hx
  obtain ⟨v, hv, rfl⟩ := hx
  have := h.2.2.2 v hv
  omega

theorem Blk.WF.card_pos {b : Blk} (h : b.WF) : 1 ≤ b.vals.length := by
  have := List.length_pos_iff.mpr h.2.1; omega

theorem Blk.WF.card_le {b : Blk} (h : b.WF) : b.vals.length ≤ 256 :=
  sorted_length_le' h.2.2.1 h.2.2.2

theorem BlocksWF.sorted {bs : List Blk} (h : BlocksWF bs) : (blkElems bs).Pairwise (· < ·) :=
  flatMap_sorted (key := Blk.id) 256 h.1 (fun b hb => (h.2 b hb).elems_sorted)
    (fun b hb => (h.2 b hb).elems_bound)

theorem BlocksWF.bound {bs : List Blk} (h : BlocksWF bs) : ∀ x ∈ blkElems bs, x < 65536 := by
  intro x hx
  unfold blkElems at hx
  rw [List.mem_flatMap] at hx
  obtain ⟨b, hb, hxb⟩ := hx
  have := (h.2 b hb).elems_bound x hxb
  have := (h.2 b hb).1
  omega

theorem BlocksWF.tail {b : Blk} {bs : List Blk} (h : BlocksWF (b :: bs)) : BlocksWF bs :=
  ⟨(List.pairwise_cons.mp h.1).2, fun c hc => h.2 c (by simp [hc])⟩

theorem BlocksWF.head {b : Blk} {bs : List Blk} (h : BlocksWF (b :: bs)) : b.WF := h.2 b (by simp)

theorem BlocksWF.head_lt {b : Blk} {bs : List Blk} (h : BlocksWF (b :: bs)) :
    ∀ c ∈ bs, b.id < c.id := (List.pairwise_cons.mp h.1).1

theorem BlocksWF.length_le {bs : List Blk} (h : BlocksWF bs) : bs.length ≤ 256 := by
  have h1 : (bs.map Blk.id).Pairwise (· < ·) := by rw [List.pairwise_map]; exact h.1
  have := sorted_length_le' (n := 256) h1 (by
    intro x hx
    rw [List.mem_map] at hx
    obtain ⟨b, hb, rfl⟩ := hx
    exact (h.2 b hb).1)
  simpa using this

theorem Body.WF.sorted {b : Body} (h : b.WF) : b.vals.Pairwise (· < ·) := by
  cases b with
  | full => exact range_sorted _
  | dense vs => exact h.2.1
  | sparse bs => exact h.2.sorted

theorem Body.WF.bound {b : Body} (h : b.WF) : ∀ x ∈ b.vals, x < 65536 := by
  cases b with
  | full => intro x hx; exact List.mem_range.mp hx
  | dense vs => exact h.2.2
  | sparse bs => exact h.2.bound

theorem blkElems_ne_nil {bs : List Blk} (h : BlocksWF bs) (hne : bs ≠ []) : blkElems bs ≠ [] := by
  cases bs with
  | nil => exact absurd rfl hne
  | cons b bs =>
    have := h.head.2.1
    simp only [blkElems, List.flatMap_cons, Blk.elems]
    intro hc
    rw [List.append_eq_nil_iff, List.map_eq_nil_iff] at hc
    exact this hc.1

theorem Body.WF.ne_nil {b : Body} (h : b.WF) : b.vals ≠ [] := by
  cases b with
  | full =>
    intro hc
    have := congrArg List.length hc
    simp [Body.vals] at this
  | dense vs => exact h.1
  | sparse bs => exact blkElems_ne_nil h.2 h.1

theorem Chk.WF.card_pos {c : Chk} (h : c.WF) : 1 ≤ c.card := by
  have := List.length_pos_iff.mpr h.2.ne_nil; unfold Chk.card; omega

theorem Chk.WF.card_le {c : Chk} (h : c.WF) : c.card ≤ 65536 :=
  sorted_length_le' h.2.sorted h.2.bound

theorem Chk.WF.elems_bound {c : Chk} (h : c.WF) :
    ∀ x ∈ c.elems, c.id * 65536 ≤ x ∧ x < (c.id + 1) * 65536 := by
  intro x hx
  unfold Chk.elems at hx
  rw [List.mem_map] at hx
  obtain ⟨v, hv, rfl⟩ := hx
  have := h.2.bound v hv
  omega

@[simp] theorem Chk.elems_length (c : Chk) : c.elems.length = c.card := by
  simp [Chk.elems, Chk.card]

@[simp] theorem Blk.elems_length (b : Blk) : b.elems.length = b.vals.length := by
  simp [Blk.elems]

theorem ChunksWF.tail {c : Chk} {cs : List Chk} (h : ChunksWF (c :: cs)) : ChunksWF cs :=
  ⟨(List.pairwise_cons.mp h.1).2, fun d hd => h.2 d (by simp [hd])⟩

theorem ChunksWF.head {c : Chk} {cs : List Chk} (h : ChunksWF (c :: cs)) : c.WF := h.2 c (by simp)

theorem ChunksWF.head_lt {c : Chk} {cs : List Chk} (h : ChunksWF (c :: cs)) :
    ∀ d ∈ cs, c.id < d.id := (List.pairwise_cons.mp h.1).1

theorem ChunksWF.drop {cs : List Chk} (h : ChunksWF cs) (k : Nat) : ChunksWF (cs.drop k) :=
  ⟨h.1.sublist (List.drop_sublist _ _), fun c hc => h.2 c (List.mem_of_mem_drop hc)⟩

theorem ChunksWF.sorted {cs : List Chk} (h : ChunksWF cs) : (seqElems cs).Pairwise (· < ·) :=
  flatMap_sorted (key := Chk.id) 65536 h.1 (fun c hc => pairwise_map_add _ (h.2 c hc).2.sorted)
    (fun c hc => (h.2 c hc).elems_bound)

theorem ChunksWF.bound {cs : List Chk} (h : ChunksWF cs) : ∀ x ∈ seqElems cs, x < 4294901760 := by
  intro x hx
  unfold seqElems at hx
  rw [List.mem_flatMap] at hx
  obtain ⟨c, hc, hxc⟩ := hx
  have := (h.2 c hc).elems_bound x hxc
  have := (h.2 c hc).1
  omega

theorem seqElems_length (cs : List Chk) : (seqElems cs).length = cardSum cs := by
  induction cs with
  | nil => rfl
  | cons c cs ih =>
    simp only [seqElems, List.flatMap_cons, List.length_append, Chk.elems_length, cardSum,
      List.map_cons, List.sum_cons] at ih ⊢
    omega

theorem ChunksWF.cardSum_lt {cs : List Chk} (h : ChunksWF cs) : cardSum cs ≤ 4294901760 := by
  rw [← seqElems_length]
  exact sorted_length_le' h.sorted h.bound

theorem ChunksWF.length_le {cs : List Chk} (h : ChunksWF cs) : cs.length ≤ 65535 := by
  have h1 : (cs.map Chk.id).Pairwise (· < ·) := by rw [List.pairwise_map]; exact h.1
  have := sorted_length_le' (n := 65535) h1 (by
    intro x hx
    rw [List.mem_map] at hx
    obtain ⟨b, hb, rfl⟩ := hx
    exact (h.2 b hb).1)
  simpa using this

@[simp] theorem seqElems_cons (c : Chk) (cs : List Chk) :
    seqElems (c :: cs) = c.elems ++ seqElems cs := by simp [seqElems]
@[simp] theorem seqElems_nil : seqElems [] = [] := rfl
@[simp] theorem blkElems_cons (c : Blk) (cs : List Blk) :
    blkElems (c :: cs) = c.elems ++ blkElems cs := by simp [blkElems]
@[simp] theorem blkElems_nil : blkElems [] = [] := rfl
@[simp] theorem cardSum_cons (c : Chk) (cs : List Chk) : cardSum (c :: cs) = c.card + cardSum cs := by
  simp [cardSum]
@[simp] theorem cardSum_nil : cardSum [] = 0 := rfl
@[simp] theorem offSum_cons (c : Chk) (cs : List Chk) :
    offSum (c :: cs) = c.body.off + offSum cs := by simp [offSum]
@[simp] theorem offSum_nil : offSum [] = 0 := rfl
@[simp] theorem blkBytes_cons (b : Blk) (bs : List Blk) :
    blkBytes (b :: bs) = b.size + blkBytes bs := by simp [blkBytes]
@[simp] theorem blkBytes_nil : blkBytes [] = 0 := rfl

theorem mem_seqElems {cs : List Chk} {v : Nat} (h : ChunksWF cs) :
    v ∈ seqElems cs ↔ ∃ c ∈ cs, c.id = v / 65536 ∧ v % 65536 ∈ c.body.vals := by
  unfold seqElems
  rw [List.mem_flatMap]
  constructor
  · rintro ⟨c, hc, hv⟩
    unfold Chk.elems at hv
    rw [List.mem_map] at hv
    obtain ⟨x, hx, rfl⟩ := hv
    have := (h.2 c hc).2.bound x hx
    refine ⟨c, hc, by omega, ?_⟩
    rw [show (c.id * 65536 + x) % 65536 = x by omega]; exact hx
  · rintro ⟨c, hc, hid, hv⟩
    refine ⟨c, hc, ?_⟩
    unfold Chk.elems
    rw [List.mem_map]
    exact ⟨_, hv, by omega⟩

theorem mem_blkElems {bs : List Blk} {v : Nat} (h : BlocksWF bs) :
    v ∈ blkElems bs ↔ ∃ b ∈ bs, b.id = v / 256 ∧ v % 256 ∈ b.vals := by
  unfold blkElems
  rw [List.mem_flatMap]
  constructor
  · rintro ⟨c, hc, hv⟩
    unfold Blk.elems at hv
    rw [List.mem_map] at hv
    obtain ⟨x, hx, rfl⟩ := hv
    have := (h.2 c hc).2.2.2 x hx
    refine ⟨c, hc, by omega, ?_⟩
    rw [show (c.id * 256 + x) % 256 = x by omega]; exact hx
  · rintro ⟨c, hc, hid, hv⟩
    refine ⟨c, hc, ?_⟩
    unfold Blk.elems
    rw [List.mem_map]
    exact ⟨_, hv, by omega⟩

/-! ## The iterator -/

theorem SeqAtP.begin {B m s cs} (h : SeqAtP B m s cs) : ItOnP B m s.begin cs where
  end_ := by simp [SSeq.begin, h.chunks]
  wf := h.wf
  at_ := h.at_

section It
variable {B : Nat → Chk → Prop} {m : Mem} {it : It} {c : Chk} {cs : List Chk}

theorem ItOnP.has_next (h : ItOnP B m it (c :: cs)) : it.has_next = true := by
  have := h.end_
  simp only [List.length_cons] at this
  simp [It.has_next]; omega

theorem ItOnP.has_next_nil (h : ItOnP B m it []) : it.has_next = false := by
  have := h.end_
  simp at this
  simp [It.has_next, this]

theorem ItOnP.id (h : ItOnP B m it (c :: cs)) : it.id m = .ok c.id := by
  unfold It.id; rw [h.has_next]; exact h.at_.1.1

theorem ItOnP.id_nil (h : ItOnP B m it []) : it.id m = .ok 65536 := by
  unfold It.id; rw [h.has_next_nil]; rfl

theorem ItOnP.base (h : ItOnP B m it (c :: cs)) : it.base m = .ok (c.id * 65536) := by
  unfold It.base; rw [h.id]
  have := h.wf.head.1
  simp only [ok_bind, pure_ok]
  rw [u32_lt (by omega)]

theorem ItOnP.base_nil (h : ItOnP B m it []) : it.base m = .ok 0 := by
  unfold It.base; rw [h.id_nil]
  rfl

theorem ItOnP.cardinality (h : ItOnP B m it (c :: cs)) : it.cardinality m = .ok c.card := by
  unfold It.cardinality
  rw [h.at_.1.2.1]
  have := h.wf.head.card_pos
  simp only [ok_bind, pure_ok]
  congr 1; omega

theorem ItOnP.type (h : ItOnP B m it (c :: cs)) : it.type m = .ok (c.body.packed % 256) := by
  unfold It.type
  rw [h.at_.1.2.2.1]; rfl

theorem ItOnP.blocks (h : ItOnP B m it (c :: cs)) : it.blocks m = .ok (c.body.packed / 256 + 1) := by
  unfold It.blocks
  rw [h.at_.1.2.2.1]; rfl

theorem ItOnP.type_full (h : ItOnP B m it (c :: cs)) (hb : c.body = .full) :
    it.type m = .ok 2 := by rw [h.type, hb]; rfl

theorem ItOnP.type_dense (h : ItOnP B m it (c :: cs)) {vs} (hb : c.body = .dense vs) :
    it.type m = .ok 3 := by rw [h.type, hb]; rfl

theorem ItOnP.type_sparse (h : ItOnP B m it (c :: cs)) {bs} (hb : c.body = .sparse bs) :
    it.type m = .ok 1 := by
  rw [h.type, hb]; simp only [Body.packed]; congr 1; omega

theorem ItOnP.blocks_sparse (h : ItOnP B m it (c :: cs)) {bs} (hb : c.body = .sparse bs) :
    it.blocks m = .ok bs.length := by
  have := h.wf.head.2
  rw [hb] at this
  have := List.length_pos_iff.mpr this.1
  rw [h.blocks, hb]; simp only [Body.packed]; congr 1; omega

theorem ItOnP.next (h : ItOnP B m it (c :: cs)) :
    ∃ it', it.next m = .ok it' ∧ ItOnP B m it' cs ∧ it'.begin_ = it.begin_ + 1 ∧
      it'.end_ = it.end_ ∧ it'.pointers = it.pointers ∧ it'.header = it.header + 8 ∧
      it'.data = it.data + c.body.off := by
  unfold It.next It.offset
  rw [h.at_.1.2.2.2]
  refine ⟨_, rfl, ⟨?_, h.wf.tail, h.at_.2.2⟩, rfl, rfl, rfl, rfl, rfl⟩
  have := h.end_
  simp only [List.length_cons] at this
  simp only; omega

end It

end Sliced
