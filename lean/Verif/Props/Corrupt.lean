import Verif.Proof.CorruptUnion
import Verif.Proof.CorruptInter
import Verif.Spec
/-!
# What a corrupt index can do (C65)

Nothing in the code checks the bytes of an index that was loaded from a file.  Here the memory holds any
bytes at all.  It is shown for each reader which memory it can touch in the worst case, how much it can
write, and that it comes to a normal end if the slices have one of the three types that exist; with any
other type it comes to `__builtin_unreachable()` (or to the `assert(false)` in front of it).  Then it is
shown, by examples, that the conditions are needed: what the code writes and reads is not limited by the
sizes that the index itself announces.
-/
namespace Sliced

/-- The object `s` was made for the address `a`, whatever is there, and from `a` on the memory can be read
as far as its number of slices (2 bytes), skip pointers (8 bytes for every 32 slices), headers (8 bytes
for every slice), `g` bytes for every slice, and the room of one more slice. -/
def OpenAt (m : Mem) (a : Nat) (s : SSeq) (g : Nat) : Prop :=
  SSeq.ofAddr m a = .ok s ∧
    Readable m a (2 + 8 * (s.chunks / 32) + 8 * s.chunks + g * s.chunks + 8736)

/-- the largest distance, per slice, that the 16-bit offsets of the headers can span -/
abbrev byHeaders : Nat := 65536
/-- the largest distance, per slice, that the 32-bit offsets of the skip pointers (one for 32 slices) can
span -/
abbrev byPointers : Nat := 134217728

/-- The type of every slice is 1, 2 or 3. -/
def LegalTypes (m : Mem) (s : SSeq) : Prop :=
  ∀ (j : Nat) (b : UInt8), j < s.chunks → m (s.header + 8 * j + 4) = some b →
    b.toNat = 1 ∨ b.toNat = 2 ∨ b.toNat = 3

/-- The ids of the slices do not decrease. -/
def IdsRise (m : Mem) (s : SSeq) : Prop :=
  ∀ (i j : Nat) (b c b' c' : UInt8), i ≤ j → j < s.chunks →
    m (s.header + 8 * i) = some b → m (s.header + 8 * i + 1) = some c →
    m (s.header + 8 * j) = some b' → m (s.header + 8 * j + 1) = some c' →
    b.toNat + 256 * c.toNat ≤ b'.toNat + 256 * c'.toNat

/-- If `good` holds, the code comes to a normal end.  In any case it does so with `P`, or it aborts (with
assertions) or is undefined (without). -/
structure Outcome {α : Type} (good : Prop) (dbg : Bool) (P : α → Prop) (r : Res α) : Prop where
  good : good → ∃ x, r = .ok x
  post : ∀ x, r = .ok x → P x
  other : (∃ x, r = .ok x) ∨ r = .error (if dbg then .abort else .ub)

/-! ## From there to the lemmas -/

theorem Safe.outcome {α : Type} {L good : Prop} {dbg : Bool} {P : α → Prop} {r : Res α}
    (h : Safe L dbg P r) (hl : good → L) : Outcome good dbg P r := by
  rcases h with ⟨x, rfl, hx⟩ | ⟨hn, rfl⟩
  · exact ⟨fun _ => ⟨x, rfl⟩, fun y e => by cases e; exact hx, Or.inl ⟨x, rfl⟩⟩
  · refine ⟨fun hg => absurd (hl hg) hn, fun y e => ?_, Or.inr ?_⟩
    · cases dbg <;> cases e
    · cases dbg <;> rfl

theorem Runs.exists {α : Type} {P : α → Prop} {r : Res α} (h : Runs P r) : ∃ x, r = .ok x ∧ P x := h

theorem ofAddr_ok {m : Mem} {a : Nat} {s : SSeq} (h : SSeq.ofAddr m a = .ok s) :
    ∃ c, rd16 m a = .ok c ∧ s.chunks = 1 + c ∧ s.pointers = a + 2 ∧
      s.header = a + 2 + 8 * (s.chunks / 32) ∧ s.data = a + 2 + 8 * (s.chunks / 32) + 8 * s.chunks := by
  unfold SSeq.ofAddr at h
  obtain ⟨c, hc, h⟩ := bind_ok h
  cases h
  refine ⟨c, hc, rfl, rfl, ?_, ?_⟩
  · simp only [associativity]; omega
  · simp only [associativity]; omega

theorem rd8_byte {m : Mem} {a x : Nat} (h : rd8 m a = .ok x) : ∃ b, m a = some b ∧ x = b.toNat := by
  unfold rd8 at h
  cases e : m a with
  | none => rw [e] at h; cases h
  | some b => rw [e] at h; cases h; exact ⟨b, rfl, rfl⟩

theorem OpenAt.room {m : Mem} {a g : Nat} {s : SSeq} (h : OpenAt m a s g) : Room m s g := by
  obtain ⟨c, hc, e1, e2, e3, e4⟩ := ofAddr_ok h.1
  have hlt := rd16_lt hc
  have hw : ∀ p, a ≤ p → p < a + (2 + 8 * (s.chunks / 32) + 8 * s.chunks + g * s.chunks + 8736) →
      (m p).isSome = true := by
    intro p h1 h2
    have := h.2 (p - a) (by omega)
    rwa [show a + (p - a) = p by omega] at this
  refine ⟨by omega, by omega, ?_, ?_, ?_⟩
  · exact fun p h1 h2 => hw p (by omega) (by omega)
  · exact fun p h1 h2 => hw p (by omega) (by omega)
  · refine fun p h1 h2 => hw p (by omega) ?_
    rw [e4] at h2
    simpa only [Nat.add_assoc] using h2

theorem LegalTypes.legal {m : Mem} {s : SSeq} (h : LegalTypes m s) : Legal m s := by
  intro j hj t ht
  unfold rd16 at ht
  obtain ⟨x, hx, ht⟩ := bind_ok ht
  obtain ⟨y, -, ht⟩ := bind_ok ht
  obtain ⟨b, hb, rfl⟩ := rd8_byte hx
  cases ht
  have := h j b hj hb
  omega

theorem IdsRise.rising {m : Mem} {s : SSeq} (h : IdsRise m s) : Rising m s := by
  intro i j x y hij hj hx hy
  unfold rd16 at hx hy
  obtain ⟨x0, hx0, hx⟩ := bind_ok hx
  obtain ⟨x1, hx1, hx⟩ := bind_ok hx
  obtain ⟨y0, hy0, hy⟩ := bind_ok hy
  obtain ⟨y1, hy1, hy⟩ := bind_ok hy
  obtain ⟨b, hb, rfl⟩ := rd8_byte hx0
  obtain ⟨c, hc, rfl⟩ := rd8_byte hx1
  obtain ⟨b', hb', rfl⟩ := rd8_byte hy0
  obtain ⟨c', hc', rfl⟩ := rd8_byte hy1
  cases hx
  cases hy
  have := h i j b c b' c' hij hj hb hc hb' hc'
  omega

variable {m : Mem} {a b : Nat} {s l r : SSeq} {dbg : Bool}

/-! ## The theorems -/

/-- C65: any two bytes that can be read can be opened as a sequence, and it has between 1 and 65536
slices. -/
theorem C65_open (h : Readable m a 2) :
    ∃ s, SSeq.ofAddr m a = .ok s ∧ 1 ≤ s.chunks ∧ s.chunks ≤ 65536 := by
  obtain ⟨x, hx⟩ := Option.isSome_iff_exists.mp (h 0 (by omega))
  obtain ⟨y, hy⟩ := Option.isSome_iff_exists.mp (h 1 (by omega))
  have e : rd16 m a = .ok (x.toNat + 256 * y.toNat) := rd16_of (rd8_of hx) (rd8_of hy)
  have hs : ∃ s, SSeq.ofAddr m a = .ok s := by
    unfold SSeq.ofAddr
    rw [e]
    exact ⟨_, rfl⟩
  obtain ⟨s, hs⟩ := hs
  obtain ⟨c, hc, e1, -⟩ := ofAddr_ok hs
  have := rd16_lt hc
  exact ⟨s, hs, by omega, by omega⟩

/-- C65: `cardinality` and `size` on any bytes. -/
theorem C65_cardinality (h : OpenAt m a s 0) : ∃ c, s.cardinality m = .ok c ∧ s.size m = .ok c := by
  obtain ⟨c, hc, -⟩ := runCardinality h.room
  exact ⟨c, hc, hc⟩

/-- C65: `contains` on any bytes. -/
theorem C65_contains (h : OpenAt m a s byPointers) {v : Nat} (hv : v < 2 ^ 32) :
    Outcome (LegalTypes m s) dbg (fun _ => True) (s.contains dbg m v) :=
  (safeContains h.room (Nat.le_refl _) v hv).outcome LegalTypes.legal

/-- C65: `next_geq` on any bytes. -/
theorem C65_next_geq (h : OpenAt m a s byPointers) (v : Nat) :
    Outcome (LegalTypes m s) dbg (fun _ => True) (s.next_geq dbg m v) :=
  (safeNextGeq h.room (Nat.le_refl _) v).outcome LegalTypes.legal

/-- C65: `select` on any bytes.  Legal types do not help here, see `C65_select_bad`: in a debug build it
never reads or writes where it must not, in a release build nothing more than this is known. -/
theorem C65_select (h : OpenAt m a s byPointers) {rank : Nat} (hv : rank < 2 ^ 32) (value : Nat) :
    Outcome False dbg (fun _ => True) (s.select dbg m rank value) :=
  (safeSelect h.room (Nat.le_refl _) value hv).outcome id

/-- C65: `decode` on any bytes writes at most 65536 integers for every slice. -/
theorem C65_decode (h : OpenAt m a s byHeaders) {out : List Nat} {p : Nat}
    (hc : p + 65536 * s.chunks ≤ out.length) :
    Outcome (LegalTypes m s) dbg (fun q => q.1 ≤ 65536 * s.chunks ∧ q.2.length = out.length)
      (s.decode dbg m out p) :=
  (safeDecode h.room (Nat.le_refl _) hc).outcome LegalTypes.legal

/-- C65: `uncompress` on any bytes stays within a bitmap of 2^32 bits. -/
theorem C65_uncompress (h : OpenAt m a s byHeaders) {out : List Nat} (hc : 2 ^ 26 ≤ out.length) :
    Outcome (LegalTypes m s) dbg (fun q => q.1 ≤ 65536 * s.chunks ∧ q.2.length = out.length)
      (s.uncompress dbg m out) :=
  (safeUncompress h.room (Nat.le_refl _) hc).outcome LegalTypes.legal

/-- C65: the enumerator on any bytes: its buffer of 65536 integers is never exceeded, and the loop ends
after at most 65536 elements for every slice. -/
theorem C65_enumerator (h : OpenAt m a s byHeaders) {buf : List Nat} (hb : 65536 ≤ buf.length)
    (past fuel : Nat) (hf : 65536 * s.chunks + 1 < fuel) :
    Outcome (LegalTypes m s) dbg (fun q => q.length ≤ 65536 * s.chunks)
      (do let e ← Enum.init dbg m buf s past
          Enum.collect dbg m fuel e) := by
  refine Safe.outcome (L := Legal m s) ?_ LegalTypes.legal
  refine (safeEnumInit h.room hb past).bind ?_
  rintro e ⟨h1, h2, h3⟩
  have hl : e.left ≤ 65536 * s.chunks := by
    have hc := h1.card
    have hch := h1.chunks
    have hp := h.room.pos
    obtain ⟨k, hk⟩ : ∃ k, s.chunks = k + 1 := ⟨s.chunks - 1, by omega⟩
    unfold Enum.left
    rw [hch, h3, hk, show k + 1 - 0 - 1 = k by omega, Nat.mul_succ]
    omega
  refine (safeCollect h.room (Nat.le_refl _) fuel e (fun _ => ⟨h1, by omega⟩) (by omega)).mono ?_
  intro q hq
  rw [h2] at hq
  exact Nat.le_trans hq hl

/-- C65: `next_geq_enumerator` on any bytes, for arguments that do not decrease. -/
theorem C65_next_geq_enumerator (h : OpenAt m a s byPointers) {vs : List Nat} (hs : vs.Pairwise (· ≤ ·)) :
    Outcome (LegalTypes m s) dbg (fun q => q.length = vs.length)
      (do let e ← GeqEnum.new m s
          e.run dbg m vs) := by
  refine Safe.outcome (L := Legal m s) ?_ LegalTypes.legal
  refine (runGeqNew h.room).bindS ?_
  rintro e ⟨h1, h2⟩
  refine safeGeqRun h.room (Nat.le_refl _) vs e h1 hs (fun _ => ?_)
  rw [h2]
  exact h.room.pos

/-- C65: `pairwise_intersection` on any bytes, and with any table for the shuffles: at most 65536
integers for every slice of the operand with fewer slices. -/
theorem C65_intersection (hl : OpenAt m a l byHeaders) (hr : OpenAt m b r byHeaders)
    {tab : Nat → List Nat} {x buf : List Nat} {out : Nat} (hx : 1024 ≤ x.length)
    (hc : out + 65536 * min l.chunks r.chunks ≤ buf.length) :
    Outcome (LegalTypes m l ∧ LegalTypes m r) dbg
      (fun q => q.1 ≤ 65536 * min l.chunks r.chunks ∧ q.2.1.length = x.length ∧
        q.2.2.length = buf.length)
      (pairwise_intersection dbg tab m l r x buf out) :=
  (safeIntersection hl.room hr.room (Nat.le_refl _) hx hc).outcome (fun h => ⟨h.1.legal, h.2.legal⟩)

/-- C65: `pairwise_union` on any bytes: at most 65536 integers for every slice of both operands. -/
theorem C65_union (hl : OpenAt m a l byHeaders) (hr : OpenAt m b r byHeaders)
    {t : UScratch} {buf : List Nat} {out : Nat} (h4 : 4 ≤ t.x4.length) (hx : 1024 ≤ t.x.length)
    (hc : out + 65536 * (l.chunks + r.chunks) ≤ buf.length) :
    Outcome (LegalTypes m l ∧ LegalTypes m r) dbg
      (fun q => q.1 ≤ 65536 * (l.chunks + r.chunks) ∧ q.2.1.x4.length = t.x4.length ∧
        q.2.1.x.length = t.x.length ∧ q.2.2.length = buf.length)
      (pairwise_union dbg m l r t buf out) :=
  ((safeUnion hl.room hr.room (Nat.le_refl _) h4 hx hc).mono
    (fun _ h => ⟨h.1, h.2.1.1, h.2.1.2, h.2.2⟩)).outcome (fun h => ⟨h.1.legal, h.2.legal⟩)

/-- C65: `union_many` on any bytes. -/
theorem C65_union_many {ss : List SSeq} (hne : ss ≠ []) (h : ∀ q ∈ ss, ∃ a, OpenAt m a q byHeaders)
    {t : MScratch} {buf : List Nat} {out : Nat} (hb : 1024 ≤ t.bitmap.length) (ht : 1024 ≤ t.tmp.length)
    (hc : out + 65536 * (ss.map SSeq.chunks).sum ≤ buf.length) :
    Outcome (∀ q ∈ ss, LegalTypes m q) dbg
      (fun q => q.1 ≤ 65536 * (ss.map SSeq.chunks).sum ∧ q.2.1.bitmap.length = t.bitmap.length ∧
        q.2.1.tmp.length = t.tmp.length ∧ q.2.2.length = buf.length)
      (union_many dbg m ss t buf out) :=
  ((safeUnionMany (Nat.le_refl _) hne (fun q hq => (h q hq).choose_spec.room) hb ht hc).mono
    (fun _ h => ⟨h.1, h.2.1.1, h.2.1.2, h.2.2⟩)).outcome (fun h q hq => (h q hq).legal)

/-- C65: `intersection` of several sequences on any bytes, for any sort that permutes.  Its static vector
of 65536 headers is never exceeded.  In a debug build the assertions of the second pass hold if the ids
of the slices do not decrease; in a release build the order of the ids does not matter. -/
theorem C65_intersection_many {ss : List SSeq} (hne : ss ≠ [])
    (h : ∀ q ∈ ss, ∃ a, OpenAt m a q byPointers)
    {sort : (SSeq → Nat) → List SSeq → List SSeq} (hp : ∀ key, (sort key ss).Perm ss)
    {t : IScratch} {buf : List Nat} {out : Nat} (hh : 65536 ≤ t.headers.length)
    (ht : 1024 ≤ t.tmp.length) (hb : 1024 ≤ t.bitmap.length)
    (hc : ∀ q ∈ ss, out + 65536 * q.chunks ≤ buf.length) :
    Outcome ((∀ q ∈ ss, LegalTypes m q) ∧ (dbg = false ∨ ∀ q ∈ ss, IdsRise m q)) dbg
      (fun q => (∃ z ∈ ss, q.1 ≤ 65536 * z.chunks) ∧ q.2.1.Perm ss ∧
        q.2.2.1.headers.length = t.headers.length ∧ q.2.2.1.bitmap.length = t.bitmap.length ∧
        q.2.2.1.tmp.length = t.tmp.length ∧ q.2.2.2.length = buf.length)
      (intersection dbg sort m ss t buf out) :=
  ((safeIntersectionMany (Nat.le_refl _) hne (fun q hq => (h q hq).choose_spec.room) hp hh ht hb hc).mono
    (fun _ h => ⟨h.1, h.2.1, h.2.2.1.1, h.2.2.1.2.1, h.2.2.1.2.2, h.2.2.2⟩)).outcome
    (fun h => ⟨h.2.imp id (fun h q hq => (h q hq).rising), fun q hq => (h.1 q hq).legal⟩)

/-! ## Cases that meet the hypotheses

The memory in which every byte is 1: 258 slices, all with id 257, all made of blocks. -/

def ones : Mem := fun _ => some 1
def onesSeq : SSeq := ⟨258, 2, 66, 2130⟩

theorem ones_open (g : Nat) : OpenAt ones 0 onesSeq g := ⟨by decide, fun _ _ => rfl⟩
theorem ones_legal : LegalTypes ones onesSeq := by
  intro j b _ h
  cases h
  exact Or.inl rfl

example : ∃ x, onesSeq.contains true ones 16843009 = .ok x :=
  (C65_contains (ones_open _) (by decide)).good ones_legal
example : ∃ x, onesSeq.next_geq true ones 16843009 = .ok x :=
  (C65_next_geq (ones_open _) _).good ones_legal
example : (∃ x, onesSeq.select true ones 5 0 = .ok x) ∨ onesSeq.select true ones 5 0 = .error .abort :=
  (C65_select (ones_open _) (by decide) 0).other
example : ∃ x, onesSeq.decode true ones (List.replicate (65536 * 258) 0) 0 = .ok x :=
  (C65_decode (ones_open _) (by rw [List.length_replicate]; exact Nat.le_of_eq (Nat.zero_add _))).good
    ones_legal
example : ∃ x, onesSeq.uncompress true ones (List.replicate (2 ^ 26) 0) = .ok x :=
  (C65_uncompress (ones_open _) (by rw [List.length_replicate]; exact Nat.le_refl _)).good ones_legal
example : ∃ x, (do
      let e ← GeqEnum.new ones onesSeq
      e.run false ones [0, 7, 16843009, 4294967295]) = .ok x :=
  (C65_next_geq_enumerator (ones_open _) (by decide)).good ones_legal
example : ∃ x, pairwise_union false ones onesSeq onesSeq ⟨List.replicate 4 0, List.replicate 1024 0⟩
    (List.replicate (65536 * (258 + 258)) 0) 0 = .ok x :=
  (C65_union (ones_open _) (ones_open _) (by rw [List.length_replicate]; exact Nat.le_refl _)
    (by rw [List.length_replicate]; exact Nat.le_refl _)
    (by rw [List.length_replicate]; exact Nat.le_of_eq (Nat.zero_add _))).good ⟨ones_legal, ones_legal⟩
example : ∃ x, intersection true (fun _ ss => ss) ones [onesSeq, onesSeq]
    ⟨List.replicate 65536 0, List.replicate 1024 0, List.replicate 1024 0⟩
    (List.replicate (65536 * 258) 0) 0 = .ok x := by
  have hm : ∀ q ∈ [onesSeq, onesSeq], q = onesSeq := by simp
  refine (C65_intersection_many (by simp) (fun q hq => ⟨0, by rw [hm q hq]; exact ones_open _⟩)
    (fun _ => List.Perm.refl _) (by rw [List.length_replicate]; exact Nat.le_refl _)
    (by rw [List.length_replicate]; exact Nat.le_refl _)
    (by rw [List.length_replicate]; exact Nat.le_refl _)
    (fun q hq => by rw [hm q hq, List.length_replicate]; exact Nat.le_of_eq (Nat.zero_add _))).good
    ⟨fun q hq => by rw [hm q hq]; exact ones_legal, Or.inr (fun q hq => ?_)⟩
  rw [hm q hq]
  intro i j b c b' c' _ _ h1 h2 h3 h4
  cases h1
  cases h2
  cases h3
  cases h4
  exact Nat.le_refl _

/-! ## The conditions are needed -/

theorem err_of_map {α β : Type} {r : Res α} {f : α → β} {e : Err} (h : f <$> r = .error e) :
    r = .error e := by
  cases r with
  | ok x => cases h
  | error e' => cases h; rfl

/-- C65: a type that does not exist.  One slice of one element, type 7: undefined behaviour in a release
build, a failed assertion in a debug build. -/
theorem C65_type_needed :
    let m := memOf 0 [0, 0, 0, 0, 0, 0, 7, 0, 0, 0] 8736
    ∃ s, SSeq.ofAddr m 0 = .ok s ∧ s.contains false m 0 = .error .ub ∧ s.contains true m 0 = .error .abort ∧
      s.next_geq false m 0 = .error .ub ∧ s.select false m 0 0 = .error .ub ∧
      s.decode false m (List.replicate 1 0) 0 = .error .ub ∧
      pairwise_intersection false (fun _ => []) m s s [] [] 0 = .error .ub ∧
      union_many false m [s] ⟨[], []⟩ [] 0 = .error .ub ∧
      union_many true m [s] ⟨[], []⟩ [] 0 = .error .abort := by
  refine ⟨⟨1, 2, 2, 10⟩, ?_, ?_, ?_, ?_, ?_, ?_, ?_, err_of_map (f := fun q => q.1) ?_,
    err_of_map (f := fun q => q.1) ?_⟩
  all_goals decide +kernel

/-- C65: an offset that does not fit.  Two slices, the first one full with offset 65535, in a file of 18
bytes after which 40 more bytes can be read: a query for the second slice reads outside, in both build
modes. -/
theorem C65_offset_bad :
    let m := memOf 0 [1, 0, 0, 0, 255, 255, 2, 0, 255, 255, 1, 0, 0, 0, 1, 0, 0, 0] 40
    ∃ s, SSeq.ofAddr m 0 = .ok s ∧ LegalTypes m s ∧ s.contains true m 65536 = .error .ub ∧
      s.contains false m 65536 = .error .ub ∧ s.next_geq true m 65537 = .error .ub ∧
      s.select true m 65536 0 = .error .ub := by
  refine ⟨⟨2, 2, 2, 18⟩, ?_, ?_, ?_⟩
  · decide +kernel
  · intro j b hj hb
    have : j = 0 ∨ j = 1 := by simp only at hj; omega
    rcases this with rfl | rfl
    · cases hb; exact Or.inr (Or.inl rfl)
    · cases hb; exact Or.inl rfl
  · decide +kernel

/-- C65: a skip pointer that is wrong.  33 slices, full, with ids 0, …, 32, and a skip pointer of
4294967295 bytes where 0 belongs: the query for the last slice is not affected as a full slice has no
bytes; with the type of the last slice changed to blocks it reads 4 GB behind the headers. -/
theorem C65_pointer_bad :
    let hd : Nat → UInt8 → List UInt8 := fun j t => [UInt8.ofNat j, 0, 255, 255, t, 0, 0, 0]
    let bytes : UInt8 → List UInt8 := fun t =>
      [32, 0, 0, 0, 32, 0, 255, 255, 255, 255] ++ (List.range 32).flatMap (fun j => hd j 2) ++ hd 32 t
    let good := memOf 0 (bytes 2) 40
    let bad := memOf 0 (bytes 1) 40
    ∃ s, SSeq.ofAddr good 0 = .ok s ∧ SSeq.ofAddr bad 0 = .ok s ∧ s.contains true good 2097152 = .ok true ∧
      s.contains true bad 2097152 = .error .ub ∧ s.contains false bad 2097152 = .error .ub := by
  refine ⟨⟨33, 2, 10, 274⟩, ?_⟩
  decide +kernel

/-- C65: the header of a slice lies about its cardinality.  One slice of one block of 30 elements, whose
header says 1 element: `size()` is 1, but `decode` needs more than 24 integers of room: a buffer with the
room that is enough for every list of one element (C24) is exceeded. -/
theorem C65_size_bad :
    let m := memOf 0 ([0, 0, 0, 0, 0, 0, 1, 0, 30, 0, 0, 29] ++ (List.range 30).map UInt8.ofNat) 40
    ∃ s, SSeq.ofAddr m 0 = .ok s ∧ LegalTypes m s ∧ s.size m = .ok 1 ∧
      s.decode true m (List.replicate (1 + 23) 0) 0 = .error .ub ∧
      s.decode false m (List.replicate (1 + 23) 0) 0 = .error .ub := by
  refine ⟨⟨1, 2, 2, 10⟩, ?_, ?_, ?_⟩
  · decide +kernel
  · intro j b hj hb
    have : j = 0 := by simp only at hj; omega
    subst this
    cases hb
    exact Or.inl rfl
  · decide +kernel

/-- C65: `select` with legal types.  One slice of one block of 2 elements, whose header says 5 elements:
`select(3)` comes to the end of the blocks, which is marked as unreachable. -/
theorem C65_select_bad :
    let m := memOf 0 [0, 0, 0, 0, 4, 0, 1, 0, 4, 0, 0, 1, 10, 20] 8736
    ∃ s, SSeq.ofAddr m 0 = .ok s ∧ LegalTypes m s ∧ s.select false m 1 0 = .ok (true, 20) ∧
      s.select false m 3 0 = .error .ub ∧ s.select true m 3 0 = .error .abort := by
  refine ⟨⟨1, 2, 2, 10⟩, ?_, ?_, ?_⟩
  · decide +kernel
  · intro j b hj hb
    have : j = 0 := by simp only at hj; omega
    subst this
    cases hb
    exact Or.inl rfl
  · decide +kernel

/-- Two sequences at the addresses 0 and 292: one with 34 slices, with the ids 3, 9, 9, …, 9, 5, 9, where
the skip pointer leads to 5, and one with the slice 5; all slices are full. -/
def orderMem : Mem :=
  let hd : UInt8 → List UInt8 := fun i => [i, 0, 255, 255, 2, 0, 0, 0]
  memOf 0 ([33, 0, 0, 0, 32, 0, 0, 0, 0, 0] ++ hd 3 ++ (List.replicate 31 (hd 9)).flatten ++ hd 5 ++ hd 9
    ++ [0, 0, 0, 0, 0, 0, 0, 0, 0, 0] ++ [0, 0] ++ hd 5) 40

/-- C65: the order of the ids matters for the assertions of `intersection`.  The first pass, which jumps,
finds the slice 5 in both sequences of `orderMem`; the second one, which does not jump, stops at 9, and the
assertion fails. -/
theorem C65_order_needed :
    SSeq.ofAddr orderMem 0 = .ok ⟨34, 2, 10, 282⟩ ∧ SSeq.ofAddr orderMem 292 = .ok ⟨1, 294, 294, 302⟩ ∧
      intersection true (fun _ ss => ss) orderMem [⟨34, 2, 10, 282⟩, ⟨1, 294, 294, 302⟩]
        ⟨[0], List.replicate 1024 0, List.replicate 1024 0⟩ [] 0 = .error .abort := by
  refine ⟨?_, ?_, err_of_map (f := fun q => q.1) ?_⟩
  all_goals decide +kernel

end Sliced
