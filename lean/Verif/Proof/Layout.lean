import Verif.Proof.Uncompress
import Verif.Model.Builder
/-! # The byte layout of an encoded sequence, and that it satisfies the representation predicates -/
namespace Sliced

/-! ## Bitmaps as words -/

/-- the first `n` bits of `P` from position `b` on, as a number -/
def wordN (P : Nat → Bool) (b : Nat) : Nat → Nat
  | 0 => 0
  | n + 1 => wordN P b n ||| (if P (b + n) then 2 ^ n else 0)

theorem wordN_testBit (P : Nat → Bool) (b n j : Nat) :
    (wordN P b n).testBit j = (decide (j < n) && P (b + j)) := by
  induction n with
  | zero => simp [wordN]
  | succ n ih =>
    unfold wordN
    rw [Nat.testBit_or, ih]
    by_cases hP : P (b + n) = true
    · rw [if_pos hP, Nat.testBit_two_pow]
      by_cases h1 : j < n
      · simp [h1, show j < n + 1 by omega, show ¬ n = j by omega]
      · by_cases h2 : n = j
        · subst h2; simp [hP]
        · simp [h1, h2, show ¬ j < n + 1 by omega]
    · rw [if_neg hP, Nat.zero_testBit]
      by_cases h1 : j < n
      · simp [h1, show j < n + 1 by omega]
      · by_cases h2 : n = j
        · subst h2; simp [hP]
        · simp [h1, show ¬ j < n + 1 by omega]

theorem wordN_lt (P : Nat → Bool) (b : Nat) : wordN P b 64 < 18446744073709551616 := by
  apply Nat.lt_pow_two_of_testBit (n := 64)
  intro i hi
  rw [wordN_testBit]
  simp; omega

/-- the first `n` 64-bit words of the characteristic bitmap of `P` -/
def bitWords (n : Nat) (P : Nat → Bool) : List Nat :=
  (List.range n).map (fun i => wordN P (64 * i) 64)

@[simp] theorem bitWords_length (n : Nat) (P : Nat → Bool) : (bitWords n P).length = n := by
  simp [bitWords]

theorem bitWords_bufIs (n : Nat) (P : Nat → Bool) : BufIs (bitWords n P) P := by
  intro i w hw
  have hi : i < n := by
    have := (List.getElem?_eq_some_iff.mp hw).1
    simpa using this
  unfold bitWords at hw
  rw [List.getElem?_map, List.getElem?_range hi] at hw
  simp at hw
  subst hw
  refine ⟨wordN_lt _ _, ?_⟩
  intro j hj
  rw [wordN_testBit]
  simp [hj]

theorem eq_bitWords {bm : List Nat} {n : Nat} {P : Nat → Bool} (h : BufIs bm P)
    (hl : bm.length = n) : bm = bitWords n P := by
  apply List.ext_getElem?
  intro i
  exact (bitWords_bufIs n P).word_eq h (by rw [hl, bitWords_length]) (fun _ _ => rfl)

/-! ## Bytes -/

/-- the block header -/
def blkHdr (b : Blk) : List UInt8 := [UInt8.ofNat b.id, UInt8.ofNat (b.vals.length - 1)]
/-- the block data -/
def blkData (b : Blk) : List UInt8 :=
  if b.vals.length < 31 then b.vals.flatMap le8
  else (bitWords 4 (fun x => decide (x ∈ b.vals))).flatMap le64
/-- the chunk data -/
def bodyBytes : Body → List UInt8
  | .full => []
  | .dense vs => (bitWords 1024 (fun x => decide (x ∈ vs))).flatMap le64
  | .sparse bs => bs.flatMap blkHdr ++ bs.flatMap blkData
/-- the four half-words of a chunk header -/
def hdrWords (c : Chk) : List Nat := [c.id, c.card - 1, c.body.packed, c.body.off]
/-- the skip pointers of `n` groups of chunks, from group `i` on -/
def ptrBytes (cs : List Chk) (i n : Nat) : List UInt8 :=
  (List.range' i n).flatMap (fun k =>
    le32 (cardSum ((cs.drop (32 * k)).take 32)) ++ le32 (offSum ((cs.drop (32 * k)).take 32)))
/-- the whole encoding -/
def seqBytes (cs : List Chk) : List UInt8 :=
  le16 (cs.length - 1) ++ ptrBytes cs 0 (cs.length / 32) ++ (cs.flatMap hdrWords).flatMap le16
    ++ cs.flatMap (fun c => bodyBytes c.body)

@[simp] theorem le16_length (x : Nat) : (le16 x).length = 2 := rfl
@[simp] theorem le32_length (x : Nat) : (le32 x).length = 4 := rfl
@[simp] theorem le64_length (x : Nat) : (le64 x).length = 8 := rfl

theorem flatMap_length_const {α β : Type} {L : List α} {f : α → List β} {k : Nat}
    (h : ∀ a ∈ L, (f a).length = k) : (L.flatMap f).length = L.length * k := by
  induction L with
  | nil => simp
  | cons a L ih =>
    rw [List.flatMap_cons, List.length_append, h a (by simp), ih (fun b hb => h b (by simp [hb])),
      List.length_cons, Nat.add_mul, Nat.one_mul]
    omega

theorem words_bytes_length (L : List Nat) : (L.flatMap le64).length = L.length * 8 :=
  flatMap_length_const (fun _ _ => rfl)

theorem blkData_length (b : Blk) : (blkData b).length = b.size := by
  unfold blkData Blk.size bytes_by_cardinality
  by_cases h : b.vals.length < 31
  · rw [if_pos h, if_pos h, flatMap_length_const (k := 1) (fun _ _ => rfl)]; omega
  · rw [if_neg h, if_neg h, words_bytes_length, bitWords_length]

theorem blocksData_length (bs : List Blk) : (bs.flatMap blkData).length = blkBytes bs := by
  induction bs with
  | nil => rfl
  | cons b bs ih => simp [List.flatMap_cons, blkData_length, ih]

theorem blocksHdr_length (bs : List Blk) : (bs.flatMap blkHdr).length = 2 * bs.length := by
  rw [flatMap_length_const (k := 2) (fun _ _ => rfl)]; omega

theorem bodyBytes_length (b : Body) : (bodyBytes b).length = b.off := by
  cases b with
  | full => rfl
  | dense vs => simp only [bodyBytes, words_bytes_length, bitWords_length, Body.off]
  | sparse bs =>
    simp only [bodyBytes, List.length_append, blocksHdr_length, blocksData_length, Body.off]

theorem chunksData_length (cs : List Chk) :
    (cs.flatMap (fun c => bodyBytes c.body)).length = offSum cs := by
  induction cs with
  | nil => rfl
  | cons b bs ih => simp [List.flatMap_cons, bodyBytes_length, ih]

theorem hdrWords_length (cs : List Chk) : (cs.flatMap hdrWords).length = 4 * cs.length := by
  rw [flatMap_length_const (k := 4) (fun _ _ => rfl)]; omega

theorem hdrBytes_length (cs : List Chk) :
    ((cs.flatMap hdrWords).flatMap le16).length = 8 * cs.length := by
  rw [flatMap_length_const (k := 2) (fun _ _ => rfl), hdrWords_length]; omega

theorem ptrBytes_length (cs : List Chk) (i n : Nat) : (ptrBytes cs i n).length = 8 * n := by
  unfold ptrBytes
  rw [flatMap_length_const (k := 8) (fun _ _ => rfl), List.length_range']; omega

theorem seqBytes_length (cs : List Chk) :
    (seqBytes cs).length = 2 + 8 * (cs.length / 32) + 8 * cs.length + offSum cs := by
  unfold seqBytes
  rw [List.length_append, List.length_append, List.length_append, le16_length, ptrBytes_length,
    hdrBytes_length, chunksData_length]

/-! ## Loading -/

theorem Loaded.append {m : Mem} {a : Nat} {x y : List UInt8} (h : Loaded m a (x ++ y)) :
    Loaded m a x ∧ Loaded m (a + x.length) y := by
  constructor
  · intro i b hb
    exact h i b (by rw [List.getElem?_append_left (List.getElem?_eq_some_iff.mp hb).1]; exact hb)
  · intro i b hb
    have := h (x.length + i) b (by
      rw [List.getElem?_append_right (by omega), Nat.add_sub_cancel_left]; exact hb)
    rw [← Nat.add_assoc] at this; exact this

theorem Loaded.readable {m : Mem} {a : Nat} {x : List UInt8} (h : Loaded m a x) :
    Readable m a x.length := by
  intro i hi
  rw [h i _ (List.getElem?_eq_getElem hi)]; rfl

theorem Readable.append {m : Mem} {a n k : Nat} (h1 : Readable m a n) (h2 : Readable m (a + n) k) :
    Readable m a (n + k) := by
  intro i hi
  by_cases h : i < n
  · exact h1 i h
  · have := h2 (i - n) (by omega)
    rwa [show a + n + (i - n) = a + i by omega] at this

theorem Loaded.rd8 {m : Mem} {a x : Nat} {L : List UInt8} (h : Loaded m a L) {i : Nat}
    (hi : L[i]? = some (UInt8.ofNat x)) (hx : x < 256) : Sliced.rd8 m (a + i) = .ok x := by
  have := rd8_of (h i _ hi)
  rw [this, UInt8.toNat_ofNat', Nat.mod_eq_of_lt (by simpa using hx)]

theorem Loaded.rd16 {m : Mem} {a x : Nat} (h : Loaded m a (le16 x)) (hx : x < 65536) :
    Sliced.rd16 m a = .ok x := by
  have h0 := rd8_of (h 0 _ rfl)
  have h1 := rd8_of (h 1 _ rfl)
  rw [Nat.add_zero, UInt8.toNat_ofNat'] at h0
  rw [UInt8.toNat_ofNat'] at h1
  rw [rd16_of h0 h1]
  have : x % 2 ^ 8 + 256 * (x / 256 % 2 ^ 8) = x := by omega
  rw [this]

theorem Loaded.rd32 {m : Mem} {a x : Nat} (h : Loaded m a (le32 x)) (hx : x < 4294967296) :
    Sliced.rd32 m a = .ok x := by
  obtain ⟨h0, h1⟩ := h.append
  rw [rd32_of (h0.rd16 (by omega)) (h1.rd16 (by omega))]
  have : x % 65536 + 65536 * (x / 65536) = x := by omega
  rw [this]

theorem Loaded.rd64 {m : Mem} {a x : Nat} (h : Loaded m a (le64 x))
    (hx : x < 18446744073709551616) : Sliced.rd64 m a = .ok x := by
  obtain ⟨h0, h1⟩ := h.append
  rw [rd64_of (h0.rd32 (by omega)) (h1.rd32 (by omega))]
  have : x % 4294967296 + 4294967296 * (x / 4294967296) = x := by omega
  rw [this]

theorem Loaded.words {m : Mem} {a : Nat} {L : List Nat} (h : Loaded m a (L.flatMap le64))
    (hL : ∀ w ∈ L, w < 18446744073709551616) {i w : Nat} (hi : L[i]? = some w) :
    memWords m a i = .ok w := by
  induction L generalizing a i with
  | nil => simp at hi
  | cons x L ih =>
    rw [List.flatMap_cons] at h
    obtain ⟨h0, h1⟩ := h.append
    cases i with
    | zero =>
      simp at hi; subst hi
      exact h0.rd64 (hL _ (by simp))
    | succ i =>
      rw [List.getElem?_cons_succ] at hi
      have := ih h1 (fun w hw => hL w (by simp [hw])) hi
      unfold memWords at this ⊢
      rw [le64_length] at this
      rw [show a + 8 * (i + 1) = a + 8 + 8 * i by omega]; exact this

theorem Loaded.bitmap {m : Mem} {a n : Nat} {P : Nat → Bool}
    (h : Loaded m a ((bitWords n P).flatMap le64)) : BitsAt (memWords m a) n P := by
  intro i hi
  have hb := bitWords_bufIs n P
  have hg := List.getElem?_eq_getElem (l := bitWords n P) (i := i) (by simpa using hi)
  refine ⟨_, h.words ?_ hg, hb i _ hg⟩
  intro w hw
  obtain ⟨k, hk, rfl⟩ := List.getElem_of_mem hw
  exact (hb k _ (List.getElem?_eq_getElem hk)).1

theorem Loaded.le8s {m : Mem} {a : Nat} {L : List Nat} (h : Loaded m a (L.flatMap le8))
    (hL : ∀ v ∈ L, v < 256) : ∀ (i v : Nat), L[i]? = some v → Sliced.rd8 m (a + i) = .ok v := by
  induction L generalizing a with
  | nil => simp
  | cons x L ih =>
    rw [List.flatMap_cons] at h
    obtain ⟨h0, h1⟩ := h.append
    intro i v hi
    cases i with
    | zero =>
      simp at hi; subst hi
      exact h0.rd8 (i := 0) rfl (hL _ (by simp))
    | succ i =>
      rw [List.getElem?_cons_succ] at hi
      have := ih h1 (fun w hw => hL w (by simp [hw])) i v hi
      rw [show a + (i + 1) = a + 1 + i by omega]; exact this

theorem blkAt_of_loaded {pad : Nat} {m : Mem} {dp : Nat} {b : Blk} (hw : b.WF)
    (h : Loaded m dp (blkData b)) (hr : Readable m dp (b.size + pad)) : BlkAt pad m dp b := by
  unfold BlkAt
  unfold blkData at h
  by_cases hc : b.vals.length < 31
  · rw [if_pos hc] at h ⊢
    unfold Blk.size bytes_by_cardinality at hr
    rw [if_pos hc] at hr
    exact ⟨h.le8s hw.2.2.2, hr⟩
  · rw [if_neg hc] at h ⊢
    exact h.bitmap

theorem blocksAt_of_loaded {pad : Nat} {m : Mem} {hp dp : Nat} {bs : List Blk} (hw : BlocksWF bs)
    (hh : Loaded m hp (bs.flatMap blkHdr)) (hd : Loaded m dp (bs.flatMap blkData))
    (hr : Readable m dp (blkBytes bs + pad)) (he : ∃ x, rd8 m (hp + 2 * bs.length) = .ok x) :
    BlocksAt pad m hp dp bs := by
  induction bs generalizing hp dp with
  | nil =>
    show ∃ x, Sliced.rd8 m hp = .ok x
    simpa using he
  | cons b bs ih =>
    rw [List.flatMap_cons] at hh hd
    obtain ⟨h0, h1⟩ := hh.append
    obtain ⟨d0, d1⟩ := hd.append
    rw [blkData_length] at d1
    have hb := hw.head
    have hcl := hb.card_le
    have hcp := hb.card_pos
    rw [blkBytes_cons] at hr
    refine ⟨h0.rd8 (i := 0) rfl hb.1, h0.rd8 (i := 1) rfl (by omega), ?_, ?_⟩
    · exact blkAt_of_loaded hb d0 (hr.mono (by omega))
    · refine ih hw.tail h1 d1 (hr.shift (by omega)) ?_
      rw [List.length_cons] at he
      rw [show hp + 2 + 2 * bs.length = hp + 2 * (bs.length + 1) by omega]
      exact he

theorem Blk.WF.size_pos {b : Blk} (h : b.WF) : 1 ≤ b.size := by
  have := h.card_pos
  unfold Blk.size bytes_by_cardinality
  split <;> omega

theorem bodyAt_of_loaded {pad : Nat} {m : Mem} {dp : Nat} {b : Body} (hw : b.WF)
    (h : Loaded m dp (bodyBytes b)) (hr : Readable m dp (b.off + pad)) : BodyAt pad m dp b := by
  cases b with
  | full => trivial
  | dense vs => exact h.bitmap
  | sparse bs =>
    obtain ⟨h0, h1⟩ := h.append
    rw [blocksHdr_length] at h1
    simp only [Body.off] at hr
    refine blocksAt_of_loaded hw.2 h0 h1 (hr.shift (by omega)) ?_
    obtain ⟨hne, hwf⟩ := hw
    cases bs with
    | nil => exact absurd rfl hne
    | cons b bs =>
      have := hwf.head.size_pos
      rw [blkBytes_cons] at hr
      obtain ⟨x, hx, -⟩ := readable_rd8 hr (i := 2 * (b :: bs).length) (by omega)
      exact ⟨x, hx⟩

/-- Sparse chunks are below the density threshold and smaller than a bitmap (established by the
builder; needed for the 16-bit offset field). -/
def Chk.Small (c : Chk) : Prop :=
  ∀ bs, c.body = .sparse bs → (blkElems bs).length < 32768 ∧ 2 * bs.length + blkBytes bs < 8192

theorem Chk.off_le {c : Chk} (h : c.Small) : c.body.off ≤ 8192 := by
  cases hb : c.body with
  | full => simp [Body.off]
  | dense vs => simp [Body.off]
  | sparse bs => have := (h bs hb).2; simp only [Body.off]; omega

theorem Chk.packed_lt {c : Chk} (hw : c.WF) : c.body.packed < 65536 := by
  have hbw := hw.2
  cases hb : c.body with
  | full => simp [Body.packed]
  | dense vs => simp [Body.packed]
  | sparse bs =>
    rw [hb] at hbw
    have := hbw.2.length_le
    simp only [Body.packed]; omega

theorem hdrAt_of_loaded {m : Mem} {hp : Nat} {c : Chk} (hc : c.WF) (hs : c.Small)
    (h : Loaded m hp ((hdrWords c).flatMap le16)) : HdrAt m hp c := by
  have hcid := hc.1
  have hcl := hc.card_le
  have hcp := hc.card_pos
  have hoff := Chk.off_le hs
  have hpk := Chk.packed_lt hc
  have h0' : Loaded m hp (le16 c.id ++ (le16 (c.card - 1) ++ (le16 c.body.packed
      ++ le16 c.body.off))) := by
    simpa [hdrWords] using h
  obtain ⟨a0, a1⟩ := h0'.append
  obtain ⟨b0, b1⟩ := a1.append
  obtain ⟨c0, c1⟩ := b1.append
  exact ⟨a0.rd16 (by omega), b0.rd16 (by omega), c0.rd16 (by omega), c1.rd16 (by omega)⟩

theorem chunksAtP_of_loaded {B : Nat → Chk → Prop} {m : Mem} {hp dp : Nat} {cs : List Chk}
    (hw : ChunksWF cs) (hs : ∀ c ∈ cs, c.Small)
    (hh : Loaded m hp ((cs.flatMap hdrWords).flatMap le16))
    (hB : ∀ pre c post, cs = pre ++ c :: post → B (dp + offSum pre) c) :
    ChunksAtP B m hp dp cs := by
  induction cs generalizing hp dp with
  | nil => trivial
  | cons c cs ih =>
    rw [List.flatMap_cons, List.flatMap_append] at hh
    obtain ⟨h0, h1⟩ := hh.append
    refine ⟨hdrAt_of_loaded hw.head (hs c (by simp)) h0, hB [] c cs rfl, ?_⟩
    refine ih hw.tail (fun d hd => hs d (by simp [hd])) h1 ?_
    intro pre d post he
    have := hB (c :: pre) d post (by rw [he]; rfl)
    rwa [offSum_cons, ← Nat.add_assoc] at this

/-- What follows from the bytes of a list of chunks for one of them. -/
theorem body_of_loaded {pad : Nat} {m : Mem} {dp : Nat} {pre post : List Chk} {c : Chk} (hw : c.WF)
    (hd : Loaded m dp ((pre ++ c :: post).flatMap (fun c => bodyBytes c.body)))
    (hr : Readable m dp (offSum (pre ++ c :: post) + pad)) :
    BodyAt pad m (dp + offSum pre) c.body := by
  rw [List.flatMap_append, List.flatMap_cons] at hd
  have h1 := hd.append.2.append.1
  rw [chunksData_length] at h1
  have : offSum (pre ++ c :: post) = offSum pre + (c.body.off + offSum post) := by
    simp [offSum]
  rw [this] at hr
  exact bodyAt_of_loaded hw.2 h1 (hr.shift (by omega))

theorem ptrs_of_loaded {m : Mem} {pp : Nat} {cs : List Chk} (i n : Nat)
    (h : Loaded m pp (ptrBytes cs i n)) {k : Nat} (hk : k < n) :
    Loaded m (pp + 8 * k) (le32 (cardSum ((cs.drop (32 * (i + k))).take 32))) ∧
    Loaded m (pp + 8 * k + 4) (le32 (offSum ((cs.drop (32 * (i + k))).take 32))) := by
  induction n generalizing pp i k with
  | zero => omega
  | succ n ih =>
    unfold ptrBytes at h
    rw [List.range'_succ, List.flatMap_cons] at h
    obtain ⟨h0, h1⟩ := h.append
    cases k with
    | zero => exact h0.append
    | succ k =>
      have := ih (i + 1) h1 (k := k) (by omega)
      rw [show pp + 8 * (k + 1) = pp + 8 + 8 * k by omega, show i + (k + 1) = i + 1 + k by omega]
      exact this

theorem offSum_le {cs : List Chk} (h : ∀ c ∈ cs, c.Small) : offSum cs ≤ 8192 * cs.length := by
  induction cs with
  | nil => simp
  | cons c cs ih =>
    have := Chk.off_le (h c (by simp))
    have := ih (fun d hd => h d (by simp [hd]))
    rw [offSum_cons, List.length_cons]; omega

theorem cardSum_le {cs : List Chk} (h : ∀ c ∈ cs, c.WF) : cardSum cs ≤ 65536 * cs.length := by
  induction cs with
  | nil => simp
  | cons c cs ih =>
    have := (h c (by simp)).card_le
    have := ih (fun d hd => h d (by simp [hd]))
    rw [cardSum_cons, List.length_cons]; omega

theorem offSum_append (a b : List Chk) : offSum (a ++ b) = offSum a + offSum b := by
  simp [offSum]

/-- The directory (number of chunks, skip pointers, chunk headers) -/
def dirBytes (cs : List Chk) : List UInt8 :=
  le16 (cs.length - 1) ++ ptrBytes cs 0 (cs.length / 32) ++ (cs.flatMap hdrWords).flatMap le16

def dirSize (n : Nat) : Nat := 2 + 8 * (n / 32) + 8 * n

theorem seqBytes_split (cs : List Chk) :
    seqBytes cs = dirBytes cs ++ cs.flatMap (fun c => bodyBytes c.body) := rfl

theorem dirBytes_length (cs : List Chk) : (dirBytes cs).length = dirSize cs.length := by
  unfold dirBytes dirSize
  rw [List.length_append, List.length_append, le16_length, ptrBytes_length, hdrBytes_length]

/-- A loaded directory is a sequence whose chunk data is whatever `B` says. -/
theorem seqAtP_of_loaded {B : Nat → Chk → Prop} {m : Mem} {a : Nat} {cs : List Chk}
    (hw : ChunksWF cs) (hs : ∀ c ∈ cs, c.Small) (hne : cs ≠ []) (h : Loaded m a (dirBytes cs))
    (hB : ∀ pre c post, cs = pre ++ c :: post → B (a + dirSize cs.length + offSum pre) c) :
    ∃ s, SSeq.ofAddr m a = .ok s ∧ SeqAtP B m s cs ∧ s.data = a + dirSize cs.length := by
  have hl := hw.length_le
  have hpos := List.length_pos_iff.mpr hne
  obtain ⟨h, h3⟩ := Loaded.append (x := le16 (cs.length - 1) ++ ptrBytes cs 0 (cs.length / 32)) h
  obtain ⟨h1, h2⟩ := h.append
  rw [List.length_append, le16_length, ptrBytes_length] at h3
  rw [le16_length] at h2
  have hc := h1.rd16 (by omega)
  have e1 : a + 2 + (1 + (cs.length - 1)) / associativity * 4 * 2 = a + (2 + 8 * (cs.length / 32)) := by
    simp only [associativity]
    rw [show 1 + (cs.length - 1) = cs.length by omega]; omega
  have e2 : a + 2 + (1 + (cs.length - 1)) / associativity * 4 * 2 + (1 + (cs.length - 1)) * 4 * 2
      = a + dirSize cs.length := by
    unfold dirSize; rw [e1]; omega
  refine ⟨_, by unfold SSeq.ofAddr; rw [hc]; rfl, ⟨?_, hne, hw, ?_, ?_⟩, e2⟩
  · show 1 + (cs.length - 1) = cs.length
    omega
  · show ChunksAtP B m (a + 2 + (1 + (cs.length - 1)) / associativity * 4 * 2)
      (a + 2 + (1 + (cs.length - 1)) / associativity * 4 * 2 + (1 + (cs.length - 1)) * 4 * 2) cs
    rw [e2, e1]
    exact chunksAtP_of_loaded hw hs h3 hB
  · show PtrsAt m (a + 2) cs
    intro k hk
    obtain ⟨p1, p2⟩ := ptrs_of_loaded 0 _ h2 (k := k) (by omega)
    have hsub : ∀ c ∈ (cs.drop (32 * k)).take 32, c ∈ cs := fun c hc =>
      List.mem_of_mem_drop (List.mem_of_mem_take hc)
    have hlen : ((cs.drop (32 * k)).take 32).length ≤ 32 := by
      rw [List.length_take]; omega
    have hcs := cardSum_le (cs := (cs.drop (32 * k)).take 32) (fun c hc => hw.2 c (hsub c hc))
    have hos := offSum_le (cs := (cs.drop (32 * k)).take 32) (fun c hc => hs c (hsub c hc))
    rw [Nat.zero_add] at p1 p2
    exact ⟨p1.rd32 (by omega), p2.rd32 (by omega)⟩

/-- A loaded encoding is a sequence. -/
theorem seqAt_of_loaded {pad : Nat} {m : Mem} {a : Nat} {cs : List Chk} (hw : ChunksWF cs)
    (hs : ∀ c ∈ cs, c.Small) (hne : cs ≠ []) (h : Loaded m a (seqBytes cs))
    (hr : Readable m (a + (seqBytes cs).length) pad) :
    ∃ s, SSeq.ofAddr m a = .ok s ∧ SeqAt pad m s cs := by
  rw [seqBytes_split] at h hr
  rw [List.length_append, dirBytes_length, chunksData_length] at hr
  obtain ⟨h1, h2⟩ := h.append
  rw [dirBytes_length] at h2
  obtain ⟨s, e, hs', -⟩ := seqAtP_of_loaded (B := fun dp c => BodyAt pad m dp c.body) hw hs hne h1 (by
    intro pre c post he
    rw [he] at h2
    refine body_of_loaded (hw.2 c (by rw [he]; simp)) (by rw [he]; exact h2) (Readable.append ?_ ?_)
    · have := h2.readable
      rw [chunksData_length] at this
      rw [he]; exact this
    · rw [he] at hr ⊢
      rw [Nat.add_assoc]; exact hr)
  exact ⟨s, e, hs'⟩

end Sliced
