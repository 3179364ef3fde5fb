import Verif.Props.ManyWay
/-!
# What is read and written outside the encodings and results

C23 (reads) and C24 (writes).  The positive theorems give the model a memory in which nothing but
the encodings and 31 more bytes can be read; the model stops with `ub` at any other read.  The
negative ones show that 31 and 23 cannot be improved.
-/
namespace Sliced

variable {dbg dbg' : Bool} {xs ys Z : List Nat} {m : Mem}

/-! ## C23 -/

/-- C23: in a memory that holds the encoding and 31 more bytes and nothing else, `decode` returns
the list, and the enumerator runs through it (`k` calls of `next`, for any `k`). -/
theorem C23_decode_enumerate (hv : Valid xs) {st : Stats} {bytes : List UInt8}
    (hb : build_sequence dbg xs [] = .ok (st, bytes)) (a : Nat) :
    ∃ s, SSeq.ofAddr (memOf a bytes 31) a = .ok s ∧
      (∀ out p, p + xs.length + 23 ≤ out.length → ∃ out',
        s.decode dbg' (memOf a bytes 31) out p = .ok (xs.length, out') ∧ Wrote out p xs 23 out') ∧
      (∀ buf : List Nat, buf.length = 65536 → ∀ pte k, k < 4294967296 → ∃ e e',
        Enum.init dbg' (memOf a bytes 31) buf s pte = .ok e ∧
        Enum.nexts dbg' (memOf a bytes 31) k e = .ok e' ∧ e'.value = .ok (xs[k]?.getD pte)) := by
  obtain ⟨st', bytes', e, h⟩ := stored_total dbg hv
  rw [hb] at e
  obtain ⟨rfl, rfl⟩ := Prod.mk.inj (Except.ok.inj e)
  obtain ⟨s, es, hs⟩ := h (memOf a bytes 31) a 31 (loaded_memOf a bytes 31) (readable_memOf a bytes 31)
  refine ⟨s, es, fun out p hcap => C01_decode hv hs out p hcap, ?_⟩
  intro buf hbuf pte k hk
  obtain ⟨e, e', h1, h2, -, h3, -⟩ := C09_enumerator (dbg' := dbg') hv hs pte buf hbuf k hk
  exact ⟨e, e', h1, h2, h3⟩

/-- Two encodings, each followed by 31 bytes, and nothing else. -/
def memOf2 (bx bY : List UInt8) (pad a : Nat) : Mem :=
  memOf a (bx ++ List.replicate pad 0 ++ bY) pad

theorem memOf2_loaded (bx bY : List UInt8) (pad a : Nat) :
    Loaded (memOf2 bx bY pad a) a bx ∧ Readable (memOf2 bx bY pad a) (a + bx.length) pad ∧
    Loaded (memOf2 bx bY pad a) (a + bx.length + pad) bY ∧
    Readable (memOf2 bx bY pad a) (a + bx.length + pad + bY.length) pad := by
  have hl := loaded_memOf a (bx ++ List.replicate pad 0 ++ bY) pad
  have hr := readable_memOf a (bx ++ List.replicate pad 0 ++ bY) pad
  obtain ⟨l1, l2⟩ := hl.append
  obtain ⟨l3, l4⟩ := l1.append
  have r3 := l4.readable
  rw [List.length_append, List.length_replicate] at l2
  rw [List.length_replicate] at r3
  rw [List.length_append, List.length_append, List.length_replicate] at hr
  refine ⟨l3, r3, ?_, ?_⟩
  · rw [show a + bx.length + pad = a + (bx.length + pad) by omega]; exact l2
  · rw [show a + bx.length + pad + bY.length = a + (bx.length + pad + bY.length) by omega]; exact hr

/-- C23, the same for the pairwise operations. -/
theorem C23_pairwise {tab : Nat → List Nat} (ht : TabOk tab) (hx : Valid xs) (hy : Valid ys)
    {st st₂ : Stats} {bx bY : List UInt8}
    (hbx : build_sequence dbg xs [] = .ok (st, bx)) (hby : build_sequence dbg ys [] = .ok (st₂, bY))
    (a : Nat) (x : List Nat) (hs : x.length = 1024) (u : UScratch) (hu : u.Ok) (out : List Nat)
    (hcap : xs.length + ys.length + 23 ≤ out.length) :
    ∃ l r Z U x' u' o o₂, SSeq.ofAddr (memOf2 bx bY 31 a) a = .ok l ∧
      SSeq.ofAddr (memOf2 bx bY 31 a) (a + bx.length + 31) = .ok r ∧
      pairwise_intersection dbg' tab (memOf2 bx bY 31 a) l r x out 0 = .ok (Z.length, x', o) ∧
      Enumerates Z (fun v => v ∈ xs ∧ v ∈ ys) ∧ o.take Z.length = Z ∧
      pairwise_union dbg' (memOf2 bx bY 31 a) l r u out 0 = .ok (U.length, u', o₂) ∧
      Enumerates U (fun v => v ∈ xs ∨ v ∈ ys) ∧ o₂.take U.length = U := by
  obtain ⟨st', bytes', e, h⟩ := stored_total dbg hx
  rw [hbx] at e
  obtain ⟨rfl, rfl⟩ := Prod.mk.inj (Except.ok.inj e)
  obtain ⟨st', bytes', e, h'⟩ := stored_total dbg hy
  rw [hby] at e
  obtain ⟨rfl, rfl⟩ := Prod.mk.inj (Except.ok.inj e)
  obtain ⟨l1, r1, l2, r2⟩ := memOf2_loaded bx bY 31 a
  obtain ⟨l, el, -⟩ := h _ _ 31 l1 r1
  obtain ⟨r, er, -⟩ := h' _ _ 31 l2 r2
  have sl : StoredAt dbg xs 31 (memOf2 bx bY 31 a) a bx l := ⟨⟨st, hbx⟩, l1, r1, el⟩
  have sr : StoredAt dbg ys 31 (memOf2 bx bY 31 a) (a + bx.length + 31) bY r := ⟨⟨st₂, hby⟩, l2, r2, er⟩
  obtain ⟨Z, x', o, hZ, e1, w1⟩ := C10_intersection_exists (dbg := dbg') ht hx hy sl.stored sr.stored x
    hs out (by have := Nat.min_le_left xs.length ys.length; omega)
  obtain ⟨U, u', o₂, hU, e2, w2⟩ := C11_union_exists (dbg := dbg') hx hy sl sr (Or.inr (Or.inl (by omega)))
    u hu out hcap
  exact ⟨l, r, Z, U, x', u', o, o₂, el, er, e1, hZ, w1, e2, hU, w2⟩

/-- C23: the many-way operations read nothing but the encodings (`pad = 0`). -/
theorem C23_many {sort : (SSeq → Nat) → List SSeq → List SSeq} (hsort : SortOk sort)
    {ps : List (List Nat × SSeq)} (hps : StoredAll dbg 0 m ps) (hne : ps ≠ []) (s : IScratch)
    (hs : s.Ok) (t : MScratch) (ht : t.Ok) (out : List Nat)
    (hcap : (ps.map (fun p => p.1.length)).sum ≤ out.length) :
    ∃ Z U v s' t' o o₂, Enumerates Z (fun v => ∀ p ∈ ps, v ∈ p.1) ∧
      intersection dbg' sort m (ps.map Prod.snd) s out 0 = .ok (Z.length, v, s', o) ∧
      o.take Z.length = Z ∧ Enumerates U (fun v => ∃ p ∈ ps, v ∈ p.1) ∧
      union_many dbg' m (ps.map Prod.snd) t out 0 = .ok (U.length, t', o₂) ∧ o₂.take U.length = U := by
  obtain ⟨U, t', o₂, hU, e2, w2⟩ := C13_union_exists (dbg := dbg') hps hne t ht out hcap
  obtain ⟨p, ps', rfl⟩ : ∃ p ps', ps = p :: ps' := by
    cases ps with
    | nil => exact absurd rfl hne
    | cons p ps => exact ⟨p, ps, rfl⟩
  obtain ⟨Z, v, s', o, hZ, e1, w1⟩ := C12_intersection_exists (dbg := dbg') hsort hps
    (List.mem_cons_self ..) s hs out (by
      simp only [List.map_cons, List.sum_cons] at hcap
      omega)
  exact ⟨Z, U, v, s', t', o, o₂, hZ, e1, w1, hU, e2, w2⟩

/-! ### 31 bytes are needed -/

def isUb {α : Type} : Res α → Bool
  | .error .ub => true
  | _ => false

theorem isUb_eq {α : Type} {x : Res α} (h : isUb x = true) : x = .error .ub := by
  unfold isUb at h
  split at h
  · rfl
  · exact absurd h (by simp)

/-- Build `xs`, put it at address 64 with `pad` readable bytes behind it, decode it into a fresh
buffer of `cap` slots. -/
def buildDecode (dbg : Bool) (xs : List Nat) (pad cap : Nat) : Res (Nat × List Nat) := do
  let (_, bytes) ← build_sequence dbg xs []
  let s ← SSeq.ofAddr (memOf 64 bytes pad) 64
  s.decode dbg (memOf 64 bytes pad) (List.replicate cap 0) 0

/-- `buildDecode` is what it says. -/
theorem buildDecode_eq (hv : Valid xs) (pad cap : Nat) :
    ∃ bytes s, StoredAt dbg xs pad (memOf 64 bytes pad) 64 bytes s ∧
      buildDecode dbg xs pad cap
        = s.decode dbg (memOf 64 bytes pad) (List.replicate cap 0) 0 := by
  obtain ⟨st, bytes, e, h⟩ := stored_total dbg hv
  obtain ⟨s, es, hs⟩ := h (memOf 64 bytes pad) 64 pad (loaded_memOf 64 bytes pad)
    (readable_memOf 64 bytes pad)
  refine ⟨bytes, s, ⟨⟨st, e⟩, loaded_memOf 64 bytes pad, readable_memOf 64 bytes pad, es⟩, ?_⟩
  unfold buildDecode
  rw [e]
  simp only [ok_bind, es]

/-- C23: with 30 readable bytes after the encoding, decoding a valid list reads out of bounds
(whatever the output buffer; here it has 64 slots): 31 is the exact number. -/
theorem C23_needs_31 : ∃ xs bytes s, Valid xs ∧
    StoredAt dbg xs 30 (memOf 64 bytes 30) 64 bytes s ∧
    s.decode dbg (memOf 64 bytes 30) (List.replicate 64 0) 0 = .error .ub := by
  have hv : Valid (List.range 9) := valid_of_lt (by decide) (by decide) (by decide)
  obtain ⟨bytes, s, h, e⟩ := buildDecode_eq (dbg := dbg) hv 30 64
  refine ⟨_, bytes, s, hv, h, ?_⟩
  rw [← e]
  apply isUb_eq
  cases dbg <;> decide +kernel

/-- C23: decoding a one-element list whose encoding ends the readable memory (for example: the last
sequence of a mapped file that ends at a page boundary) reads out of bounds, with up to 14 readable
bytes behind it. -/
theorem C23_one_element (pad : Nat) (hp : pad < 15) : ∃ bytes s,
    StoredAt dbg [7] pad (memOf 64 bytes pad) 64 bytes s ∧
    s.decode dbg (memOf 64 bytes pad) (List.replicate 64 0) 0 = .error .ub := by
  have hv : Valid [7] := valid_of_lt (by decide) (by decide) (by decide)
  obtain ⟨bytes, s, h, e⟩ := buildDecode_eq (dbg := dbg) hv pad 64
  refine ⟨bytes, s, h, ?_⟩
  rw [← e]
  have key : ∀ pad, pad < 15 → ∀ dbg, isUb (buildDecode dbg [7] pad 64) = true := by decide +kernel
  exact isUb_eq (key pad hp dbg)

/-! ## C24 -/

/-- C24: in a buffer of any size and contents, decoding at position `p` (with 23 spare slots) leaves
everything before `p` and everything from 23 slots after the result on as it was. -/
theorem C24_decode_writes {s : SSeq} (hv : Valid xs) (hs : Stored dbg xs 31 m s) (out : List Nat)
    (p : Nat) (hcap : p + xs.length + 23 ≤ out.length) :
    ∃ out', s.decode dbg' m out p = .ok (xs.length, out') ∧ out'.length = out.length ∧
      (∀ i, i < p ∨ p + xs.length + 23 ≤ i → out'[i]? = out[i]?) := by
  obtain ⟨o, e, w⟩ := C01_decode (dbg' := dbg') hv hs out p hcap
  refine ⟨o, e, w.1, ?_⟩
  rintro i (h | h)
  · exact w.2.1 i h
  · exact w.2.2.2 i h

theorem C24_intersection_writes {tab : Nat → List Nat} {l r : SSeq} (ht : TabOk tab) (hx : Valid xs)
    (hy : Valid ys) (hl : Stored dbg xs 31 m l) (hr : Stored dbg ys 31 m r)
    (hZ : Enumerates Z (fun v => v ∈ xs ∧ v ∈ ys)) (x : List Nat) (hs : x.length = 1024)
    (out : List Nat) (p : Nat) (hcap : p + Z.length + 23 ≤ out.length) :
    ∃ x' out', pairwise_intersection dbg' tab m l r x out p = .ok (Z.length, x', out') ∧
      out'.length = out.length ∧
      (∀ i, i < p ∨ p + Z.length + 23 ≤ i → out'[i]? = out[i]?) := by
  obtain ⟨x', o, e, -, w⟩ := C10_intersection (dbg := dbg') ht hx hy hl hr hZ x hs out p hcap
  refine ⟨x', o, e, w.1, ?_⟩
  rintro i (h | h)
  · exact w.2.1 i h
  · exact w.2.2.2 i h

theorem C24_union_writes {l r : SSeq} {a b : Nat} {bx bY : List UInt8} (hx : Valid xs)
    (hy : Valid ys) (hl : StoredAt dbg xs 31 m a bx l) (hr : StoredAt dbg ys 31 m b bY r)
    (hpos : a = b ∨ a + bx.length ≤ b ∨ b + bY.length ≤ a)
    (hZ : Enumerates Z (fun v => v ∈ xs ∨ v ∈ ys)) (s : UScratch) (hs : s.Ok)
    (out : List Nat) (p : Nat) (hcap : p + Z.length + 23 ≤ out.length) :
    ∃ s' out', pairwise_union dbg' m l r s out p = .ok (Z.length, s', out') ∧
      out'.length = out.length ∧
      (∀ i, i < p ∨ p + Z.length + 23 ≤ i → out'[i]? = out[i]?) := by
  obtain ⟨x', o, e, -, w⟩ := C11_union (dbg := dbg') hx hy hl hr hpos hZ s hs out p hcap
  refine ⟨x', o, e, w.1, ?_⟩
  rintro i (h | h)
  · exact w.2.1 i h
  · exact w.2.2.2 i h

/-- C24: the many-way operations write the result and nothing else, and need no spare slots. -/
theorem C24_many_writes {sort : (SSeq → Nat) → List SSeq → List SSeq} (hsort : SortOk sort)
    {ps : List (List Nat × SSeq)} (hps : StoredAll dbg 0 m ps) (hne : ps ≠ [])
    (hZ : Enumerates Z (fun v => ∀ p ∈ ps, v ∈ p.1)) {U : List Nat}
    (hU : Enumerates U (fun v => ∃ p ∈ ps, v ∈ p.1)) (s : IScratch) (hs : s.Ok) (t : MScratch)
    (ht : t.Ok) (out : List Nat) (p : Nat) (hZc : p + Z.length ≤ out.length)
    (hUc : p + U.length ≤ out.length) :
    (∃ v s' out', intersection dbg' sort m (ps.map Prod.snd) s out p = .ok (Z.length, v, s', out') ∧
      out'.length = out.length ∧ (∀ i, i < p ∨ p + Z.length ≤ i → out'[i]? = out[i]?)) ∧
    (∃ t' out', union_many dbg' m (ps.map Prod.snd) t out p = .ok (U.length, t', out') ∧
      out'.length = out.length ∧ (∀ i, i < p ∨ p + U.length ≤ i → out'[i]? = out[i]?)) := by
  constructor
  · obtain ⟨qs, s', o, e, -, -, -, w⟩ := C12_intersection (dbg := dbg') hsort hps hne hZ s hs out p hZc
    refine ⟨_, s', o, e, w.1, ?_⟩
    rintro i (h | h)
    · exact w.2.1 i h
    · exact w.2.2.2 i h
  · obtain ⟨s', o, e, -, w⟩ := C13_union (dbg := dbg') hps hne hU t ht out p hUc
    refine ⟨s', o, e, w.1, ?_⟩
    rintro i (h | h)
    · exact w.2.1 i h
    · exact w.2.2.2 i h

/-- C24: 22 spare slots are not enough for `decode` (with enough readable memory). -/
theorem C24_needs_23 : ∃ xs bytes s, Valid xs ∧
    StoredAt dbg xs 31 (memOf 64 bytes 31) 64 bytes s ∧
    s.decode dbg (memOf 64 bytes 31) (List.replicate (xs.length + 22) 0) 0 = .error .ub := by
  have hv : Valid (List.range 9) := valid_of_lt (by decide) (by decide) (by decide)
  obtain ⟨bytes, s, h, e⟩ := buildDecode_eq (dbg := dbg) hv 31 31
  refine ⟨_, bytes, s, hv, h, ?_⟩
  rw [show (List.range 9).length + 22 = 31 by decide, ← e]
  apply isUb_eq
  cases dbg <;> decide +kernel

/-- C24: decoding into a buffer of exactly `size()` slots (as in example.cpp) overruns it: already
for a one-element list, and up to 7 slots are not enough for it. -/
theorem C24_exact_buffer_overrun (cap : Nat) (hc : cap < 8) : ∃ bytes s,
    StoredAt dbg [7] 31 (memOf 64 bytes 31) 64 bytes s ∧
    s.size (memOf 64 bytes 31) = .ok 1 ∧
    s.decode dbg (memOf 64 bytes 31) (List.replicate cap 0) 0 = .error .ub := by
  have hv : Valid [7] := valid_of_lt (by decide) (by decide) (by decide)
  obtain ⟨bytes, s, h, e⟩ := buildDecode_eq (dbg := dbg) hv 31 cap
  refine ⟨bytes, s, h, (C03_cardinality hv h.stored).2, ?_⟩
  rw [← e]
  have key : ∀ cap, cap < 8 → ∀ dbg, isUb (buildDecode dbg [7] 31 cap) = true := by decide +kernel
  exact isUb_eq (key cap hc dbg)

/-- The bounds are met by a concrete run: 31 bytes and 23 slots are enough for that list. -/
example : buildDecode true (List.range 9) 31 32
    = .ok (9, List.range 9 ++ List.replicate 23 0) := by
  have : (buildDecode true (List.range 9) 31 32).toOption
      = some (9, List.range 9 ++ List.replicate 23 0) := by decide +kernel
  cases e : buildDecode true (List.range 9) 31 32 with
  | error x => rw [e] at this; simp [Except.toOption] at this
  | ok r =>
    rw [e] at this
    exact congrArg Except.ok (Option.some.inj this)

example : ∃ m ps Z v s' out o, StoredAll true 0 m ps ∧
    intersection false stdSort m (ps.map Prod.snd) IScratch.init out 0 = .ok (Z, v, s', o) := by
  obtain ⟨m, ps, e, h⟩ := stored_many true 0 _ threeLists_valid
  have hne : ps ≠ [] := by rintro rfl; cases e
  obtain ⟨Z, U, v, s', t', o, o₂, h1, h2, h3, h4, h5, h6⟩ := C23_many (dbg' := false) stdSort_ok h hne
    IScratch.init IScratch.init_ok MScratch.init MScratch.init_ok (List.replicate _ 0)
    (Nat.le_of_eq List.length_replicate.symm)
  exact ⟨m, ps, _, v, s', _, o, h, h2⟩

example : ∃ st bytes s out', build_sequence true [3, 5, 300, 70000] [] = .ok (st, bytes) ∧
    SSeq.ofAddr (memOf 64 bytes 31) 64 = .ok s ∧
    s.decode false (memOf 64 bytes 31) (List.replicate 27 0) 0 = .ok (4, out') ∧
    Wrote (List.replicate 27 0) 0 [3, 5, 300, 70000] 23 out' := by
  obtain ⟨st, bytes, hb, -⟩ := stored_total true small_valid
  obtain ⟨s, h1, h2, -⟩ := C23_decode_enumerate (dbg' := false) small_valid hb 64
  obtain ⟨out', h3, h4⟩ := h2 (List.replicate 27 0) 0 (by simp)
  exact ⟨st, bytes, s, out', hb, h1, h3, h4⟩

example : ∃ m s out', Stored true [3, 5, 300, 70000] 31 m s ∧
    s.decode false m (List.replicate 40 1) 2 = .ok (4, out') ∧ out'[1]? = some 1 ∧ out'[35]? = some 1 := by
  obtain ⟨m, s, h⟩ := stored_exists true small_valid 31
  obtain ⟨out', h1, -, h3⟩ := C24_decode_writes (dbg' := false) small_valid h (List.replicate 40 1) 2
    (by simp)
  exact ⟨m, s, out', h, h1, h3 1 (by simp), h3 35 (by simp)⟩

example : ∃ m l r x' out', Stored true [3, 5, 300, 70000] 31 m l ∧ Stored true [5, 9] 31 m r ∧
    pairwise_intersection false stdTab m l r (List.replicate 1024 0) (List.replicate 40 1) 2
      = .ok (1, x', out') ∧ out'[1]? = some 1 ∧ out'[35]? = some 1 := by
  obtain ⟨m, l, r, a, b, bx, bY, h1, h2, -⟩ := stored_pair true small_valid
    (valid_of_lt (by decide) (by decide) (by decide) : Valid [5, 9]) 31
  obtain ⟨x', out', h3, -, h4⟩ := C24_intersection_writes (dbg' := false) (Z := [5]) stdTab_ok small_valid
    (valid_of_lt (by decide) (by decide) (by decide)) h1.stored h2.stored
    ⟨by simp, fun v => by simp; omega⟩ (List.replicate 1024 0) List.length_replicate
    (List.replicate 40 1) 2 (by simp)
  exact ⟨m, l, r, x', out', h1.stored, h2.stored, h3, h4 1 (by simp), h4 35 (by simp)⟩

example : ∃ m l r s' out', Stored true [3, 5, 300, 70000] 31 m l ∧ Stored true [5, 9] 31 m r ∧
    pairwise_union false m l r UScratch.init (List.replicate 40 1) 2
      = .ok (5, s', out') ∧ out'[1]? = some 1 ∧ out'[35]? = some 1 := by
  obtain ⟨m, l, r, a, b, bx, bY, h1, h2, h3⟩ := stored_pair true small_valid
    (valid_of_lt (by decide) (by decide) (by decide) : Valid [5, 9]) 31
  obtain ⟨x', out', h4, -, h5⟩ := C24_union_writes (dbg' := false) (Z := [3, 5, 9, 300, 70000]) small_valid
    (valid_of_lt (by decide) (by decide) (by decide)) h1 h2 (Or.inr (Or.inl h3))
    ⟨by simp, fun v => by simp; omega⟩ UScratch.init UScratch.init_ok
    (List.replicate 40 1) 2 (by simp)
  exact ⟨m, l, r, x', out', h1.stored, h2.stored, h4, h5 1 (by simp), h5 35 (by simp)⟩

example : ∃ m ps v s' out', StoredAll true 0 m ps ∧
    intersection false stdSort m (ps.map Prod.snd) IScratch.init (List.replicate 9 1) 2
      = .ok (1, v, s', out') ∧ out'[1]? = some 1 ∧ out'[3]? = some 1 := by
  obtain ⟨m, ps, e, h⟩ := stored_many true 0 [[3, 5, 300, 70000], [5, 9]] (by
    intro xs hx
    simp only [List.mem_cons, List.not_mem_nil, or_false] at hx
    rcases hx with rfl | rfl
    · exact small_valid
    · exact valid_of_lt (by decide) (by decide) (by decide))
  have hne : ps ≠ [] := by rintro rfl; cases e
  have hiff : ∀ (P : List Nat → Prop), (∀ p ∈ ps, P p.1) ↔ P [3, 5, 300, 70000] ∧ P [5, 9] := by
    intro P
    have : (∀ p ∈ ps, P p.1) ↔ ∀ x ∈ ps.map Prod.fst, P x := by simp
    rw [this, e]; simp
  have hiff2 : ∀ (P : List Nat → Prop), (∃ p ∈ ps, P p.1) ↔ P [3, 5, 300, 70000] ∨ P [5, 9] := by
    intro P
    have : (∃ p ∈ ps, P p.1) ↔ ∃ x ∈ ps.map Prod.fst, P x := by simp
    rw [this, e]; simp
  obtain ⟨⟨v, s', out', h1, -, h2⟩, -⟩ := C24_many_writes (dbg' := false) (Z := [5])
    (U := [3, 5, 9, 300, 70000]) stdSort_ok h hne
    ⟨by simp, fun v => by show _ ↔ ∀ p ∈ ps, v ∈ p.1; rw [hiff (fun x => v ∈ x)]; simp; omega⟩
    ⟨by simp, fun v => by show _ ↔ ∃ p ∈ ps, v ∈ p.1; rw [hiff2 (fun x => v ∈ x)]; simp; omega⟩
    IScratch.init IScratch.init_ok MScratch.init MScratch.init_ok (List.replicate 9 1) 2 (by simp) (by simp)
  exact ⟨m, ps, v, s', out', h, h1, h2 1 (by simp), h2 3 (by simp)⟩

end Sliced
