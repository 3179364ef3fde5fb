import Verif.Proof.Ends
import Verif.Proof.NextGeq
/-!
# Memory of any content

For every function of the model that reads an index, on memory whose bytes are arbitrary: it runs through
if the types of the slices are legal, the memory can be read as far as stated, and the output buffer has
the room stated.
-/
namespace Sliced

/-! ## Outcomes -/

/-- The piece of code runs through, with a result that has property `P`. -/
def Runs {α : Type} (P : α → Prop) (r : Res α) : Prop := ∃ x, r = .ok x ∧ P x

/-- It runs through, or it comes to a place that is marked as unreachable; the latter only if `L` is
false. -/
def Safe {α : Type} (L : Prop) (dbg : Bool) (P : α → Prop) (r : Res α) : Prop :=
  Runs P r ∨ (¬ L ∧ r = unreachable dbg)

section
variable {α β : Type} {P : α → Prop} {Q : β → Prop} {r : Res α} {f : α → Res β} {L : Prop} {dbg : Bool}

theorem Runs.ok {x : α} (h : P x) : Runs P (.ok x) := ⟨x, rfl, h⟩
theorem Runs.pure {x : α} (h : P x) : Runs P (pure x) := ⟨x, rfl, h⟩
theorem Runs.mono {P' : α → Prop} (h : Runs P r) (hp : ∀ x, P x → P' x) : Runs P' r := by
  obtain ⟨x, e, hx⟩ := h
  exact ⟨x, e, hp x hx⟩
theorem Runs.bind (h : Runs P r) (hf : ∀ x, P x → Runs Q (f x)) : Runs Q (r >>= f) := by
  obtain ⟨x, rfl, hx⟩ := h
  exact hf x hx
theorem Runs.map {g : α → β} (h : Runs P r) (hf : ∀ x, P x → Q (g x)) : Runs Q (g <$> r) := by
  obtain ⟨x, rfl, hx⟩ := h
  exact ⟨g x, rfl, hf x hx⟩
theorem Runs.cassert {c : Bool} (h : c = true) : Runs (fun _ => True) (cassert dbg c) :=
  ⟨(), cassert_of h, trivial⟩
theorem Runs.safe (h : Runs P r) : Safe L dbg P r := Or.inl h
theorem Safe.runs (h : Safe L dbg P r) (hl : L) : Runs P r := by
  rcases h with h | ⟨h, -⟩
  · exact h
  · exact absurd hl h
theorem unreachable_bind : ((unreachable dbg : Res α) >>= f) = unreachable dbg := by
  cases dbg <;> rfl
theorem Safe.bind (h : Safe L dbg P r) (hf : ∀ x, P x → Safe L dbg Q (f x)) :
    Safe L dbg Q (r >>= f) := by
  rcases h with ⟨x, rfl, hx⟩ | ⟨hl, rfl⟩
  · exact hf x hx
  · exact Or.inr ⟨hl, unreachable_bind⟩
theorem Runs.bindS (h : Runs P r) (hf : ∀ x, P x → Safe L dbg Q (f x)) : Safe L dbg Q (r >>= f) :=
  h.safe.bind hf
theorem Safe.mono {P' : α → Prop} (h : Safe L dbg P r) (hp : ∀ x, P x → P' x) : Safe L dbg P' r := by
  rcases h with h | h
  · exact Or.inl (h.mono hp)
  · exact Or.inr h
theorem Safe.weaken {L' : Prop} (h : Safe L dbg P r) (hl : L' → L) : Safe L' dbg P r := by
  rcases h with h | ⟨h, e⟩
  · exact Or.inl h
  · exact Or.inr ⟨fun h' => h (hl h'), e⟩
theorem Safe.unreach (h : ¬ L) : Safe L dbg P (unreachable dbg) := Or.inr ⟨h, rfl⟩
end

/-! ## Loads and stores -/

/-- the addresses from `lo` up to `hi` can be read -/
def Win (m : Mem) (lo hi : Nat) : Prop := ∀ p, lo ≤ p → p < hi → (m p).isSome = true

variable {m : Mem} {lo hi : Nat} {dbg : Bool}

theorem run8 (h : Win m lo hi) {a : Nat} (h1 : lo ≤ a) (h2 : a + 1 ≤ hi) :
    Runs (· < 256) (rd8 m a) := by
  obtain ⟨b, hb⟩ := Option.isSome_iff_exists.mp (h a h1 h2)
  exact ⟨_, rd8_of hb, UInt8.toNat_lt _⟩

theorem run16 (h : Win m lo hi) {a : Nat} (h1 : lo ≤ a) (h2 : a + 2 ≤ hi) :
    Runs (· < 65536) (rd16 m a) := by
  refine (run8 h h1 (by omega)).bind (fun x hx => (run8 h (a := a + 1) (by omega) (by omega)).bind
    (fun y hy => Runs.pure ?_))
  omega

theorem run32 (h : Win m lo hi) {a : Nat} (h1 : lo ≤ a) (h2 : a + 4 ≤ hi) :
    Runs (· < 4294967296) (rd32 m a) := by
  refine (run16 h h1 (by omega)).bind (fun x hx => (run16 h (a := a + 2) (by omega) (by omega)).bind
    (fun y hy => Runs.pure ?_))
  omega

theorem run64 (h : Win m lo hi) {a : Nat} (h1 : lo ≤ a) (h2 : a + 8 ≤ hi) :
    Runs (· < 18446744073709551616) (rd64 m a) := by
  refine (run32 h h1 (by omega)).bind (fun x hx => (run32 h (a := a + 4) (by omega) (by omega)).bind
    (fun y hy => Runs.pure ?_))
  omega

/-- `n` words can be read -/
def WRuns (b : Words) (n : Nat) : Prop := ∀ i, i < n → Runs (· < 18446744073709551616) (b i)

theorem runMem (h : Win m lo hi) {p n : Nat} (h1 : lo ≤ p) (h2 : p + 8 * n ≤ hi) :
    WRuns (memWords m p) n := fun i hi => run64 h (by omega) (by omega)

theorem runVec {x : List Nat} {n : Nat} (hx : n ≤ x.length) (hl : Low n x) : WRuns (vecWords x) n := by
  intro i hi
  have : i < x.length := by omega
  exact ⟨x[i], rdv_of (List.getElem?_eq_getElem this), hl i _ hi (List.getElem?_eq_getElem this)⟩

/-- what all writes leave as it is -/
abbrev SameLen (out : List Nat) : List Nat → Prop := fun out' => out'.length = out.length

theorem runWr {out : List Nat} {i : Nat} (v : Nat) (h : i < out.length) :
    Runs (fun out' => out'.length = out.length ∧ out' = out.set i v) (wr out i v) :=
  ⟨_, wr_of h, List.length_set, rfl⟩

theorem runWrs {out : List Nat} {p : Nat} (vs : List Nat) (h : p + vs.length ≤ out.length) :
    Runs (SameLen out) (wrs out p vs) := by
  obtain ⟨out', e, w⟩ := wrs_of h
  exact ⟨out', e, w.1⟩

theorem runLddqu (h : Win m lo hi) {a : Nat} (h1 : lo ≤ a) (h2 : a + 16 ≤ hi) :
    Runs (fun v => v.length = 16) (lddqu m a) := by
  have key : ∀ l : List Nat, (∀ k ∈ l, k < 16) →
      Runs (fun v => v.length = l.length) (l.mapM (fun k => rd8 m (a + k))) := by
    intro l
    induction l with
    | nil => intro _; exact Runs.pure rfl
    | cons k l ih =>
      intro hl
      rw [List.mapM_cons]
      have hk := hl k List.mem_cons_self
      refine (run8 h (by omega) (by omega)).bind (fun x _ => ?_)
      refine (ih (fun k hk => hl k (List.mem_cons_of_mem _ hk))).bind (fun v hv => Runs.pure ?_)
      simp [hv]
  have := key (List.range 16) (fun k hk => List.mem_range.mp hk)
  exact this.mono (fun v hv => by rw [hv, List.length_range])

theorem runCtz {w : Nat} (h0 : w ≠ 0) (hw : w < 18446744073709551616) : Runs (· < 64) (ctz w) := by
  obtain ⟨r, hr⟩ := ctz_exists h0 hw
  exact ⟨r, hr, (ctz_spec hr).1⟩

theorem room_one {p k n len : Nat} (h : p + k * (n + 1) ≤ len) : p + k ≤ len :=
  Nat.le_trans (Nat.add_le_add_left (Nat.le_mul_of_pos_right k (Nat.succ_pos n)) p) h

/-! ## Bitmaps -/

theorem runScanWord (f : Nat) {w base p : Nat} {out : List Nat} (hw : w < 18446744073709551616)
    (hf : (bitsOf w).length < f) (hcap : p + (bitsOf w).length ≤ out.length) :
    Runs (fun r => r.1 = p + (bitsOf w).length ∧ r.2.length = out.length) (scan_word f w base out p) := by
  induction f generalizing w p out with
  | zero => omega
  | succ f ih =>
    unfold scan_word
    by_cases h0 : w = 0
    · subst h0
      rw [if_pos rfl]
      exact Runs.ok ⟨by simp [bitsOf_zero], rfl⟩
    · obtain ⟨r, hr⟩ := ctz_exists h0 hw
      have hc := bitsOf_clear hw hr
      rw [hc] at hf hcap
      simp only [List.length_cons] at hf hcap
      rw [if_neg h0]
      simp only [hr, ok_bind, wr_of (show p < out.length by omega)]
      refine (ih (clear_lowest_lt hw _) (by omega) (by simp only [List.length_set]; omega)).mono ?_
      rintro ⟨q, out'⟩ ⟨h1, h2⟩
      rw [hc, List.length_cons]
      simp only [List.length_set] at h1 h2 ⊢
      omega

theorem runScanWord65 {w : Nat} (hw : w < 18446744073709551616) {base p : Nat} {out : List Nat}
    (hcap : p + 64 ≤ out.length) :
    Runs (fun r => p ≤ r.1 ∧ r.1 ≤ p + 64 ∧ r.2.length = out.length) (scan_word 65 w base out p) := by
  have hb := bitsOf_length_le w
  refine (runScanWord 65 hw (by omega) (by omega)).mono ?_
  rintro ⟨q, out'⟩ ⟨h1, h2⟩
  simp only at h1 h2 ⊢
  omega

theorem runDecodeBitmapLoop {b : Words} {N : Nat} (hb : WRuns b N) (n i : Nat) {base p : Nat}
    {out : List Nat} (hn : i + n ≤ N) (hcap : p + 64 * n ≤ out.length) :
    Runs (fun r => p ≤ r.1 ∧ r.1 ≤ p + 64 * n ∧ r.2.length = out.length)
      (decode_bitmap_loop b n i base out p) := by
  induction n generalizing i base out p with
  | zero => exact Runs.ok ⟨Nat.le_refl _, Nat.le_refl _, rfl⟩
  | succ n ih =>
    unfold decode_bitmap_loop
    refine (hb i (by omega)).bind (fun w hw => ?_)
    refine (runScanWord65 hw (by omega)).bind ?_
    rintro ⟨q, out'⟩ ⟨h1, h2, h3⟩
    simp only at h1 h2 h3 ⊢
    refine (ih (i + 1) (by omega) (by omega)).mono ?_
    rintro ⟨q', out''⟩ ⟨h1, h2, h3⟩
    simp only at h1 h2 h3 ⊢
    omega

theorem runDecodeBitmap {b : Words} {n : Nat} (hb : WRuns b n) {base p : Nat} {out : List Nat}
    (hcap : p + 64 * n ≤ out.length) :
    Runs (fun r => r.1 ≤ 64 * n ∧ r.2.length = out.length) (decode_bitmap b n base out p) := by
  unfold decode_bitmap
  refine (runDecodeBitmapLoop hb n 0 (by omega) hcap).bind ?_
  rintro ⟨q, out'⟩ ⟨h1, h2, h3⟩
  simp only at h1 h2 h3
  exact Runs.pure ⟨by simp only; omega, h3⟩

theorem runOperateLoop {op : Nat → Nat → Nat}
    (hop : ∀ a b, a < 18446744073709551616 → b < 18446744073709551616 →
      op a b < 18446744073709551616) {l r : Words} {N : Nat} (hl : WRuns l N) (hr : WRuns r N)
    (n i : Nat) {base p : Nat} {out : List Nat} (hn : i + n ≤ N) (hcap : p + 64 * n ≤ out.length) :
    Runs (fun r => p ≤ r.1 ∧ r.1 ≤ p + 64 * n ∧ r.2.length = out.length)
      (operate_loop op l r n i base out p) := by
  induction n generalizing i base out p with
  | zero => exact Runs.ok ⟨Nat.le_refl _, Nat.le_refl _, rfl⟩
  | succ n ih =>
    unfold operate_loop
    refine (hl i (by omega)).bind (fun x hx => (hr i (by omega)).bind (fun y hy => ?_))
    refine (runScanWord65 (hop x y hx hy) (by omega)).bind ?_
    rintro ⟨q, out'⟩ ⟨h1, h2, h3⟩
    simp only at h1 h2 h3 ⊢
    refine (ih (i + 1) (by omega) (by omega)).mono ?_
    rintro ⟨q', out''⟩ ⟨h1, h2, h3⟩
    simp only at h1 h2 h3 ⊢
    omega

theorem runAnd {l r : Words} {n : Nat} (hl : WRuns l n) (hr : WRuns r n) {base p : Nat}
    {out : List Nat} (hcap : p + 64 * n ≤ out.length) :
    Runs (fun r => r.1 ≤ 64 * n ∧ r.2.length = out.length) (and_bitmaps l r n base out p) := by
  unfold and_bitmaps operate_bitmaps
  refine (runOperateLoop (fun a b ha _ => Nat.lt_of_le_of_lt Nat.and_le_left ha) hl hr n 0 (by omega)
    hcap).bind ?_
  rintro ⟨q, out'⟩ ⟨h1, h2, h3⟩
  simp only at h1 h2 h3
  exact Runs.pure ⟨by simp only; omega, h3⟩

theorem runOr {l r : Words} {n : Nat} (hl : WRuns l n) (hr : WRuns r n) {base p : Nat}
    {out : List Nat} (hcap : p + 64 * n ≤ out.length) :
    Runs (fun r => r.1 ≤ 64 * n ∧ r.2.length = out.length) (or_bitmaps l r n base out p) := by
  unfold or_bitmaps operate_bitmaps
  refine (runOperateLoop (fun a b ha hb => Nat.or_lt_two_pow (n := 64) ha hb) hl hr n 0 (by omega)
    hcap).bind ?_
  rintro ⟨q, out'⟩ ⟨h1, h2, h3⟩
  simp only at h1 h2 h3
  exact Runs.pure ⟨by simp only; omega, h3⟩

theorem runBitmapContains {b : Words} {n pos : Nat} (hb : WRuns b n) (h : pos < 64 * n) :
    Runs (fun _ => True) (bitmap_contains b pos) := by
  unfold bitmap_contains
  exact (hb _ (by omega)).bind (fun _ _ => Runs.pure trivial)

/-! ## Sequences and iterators -/

/-- the types of all slices are among the three that the builder writes -/
def Legal (m : Mem) (s : SSeq) : Prop :=
  ∀ j, j < s.chunks → ∀ t, rd16 m (s.header + 8 * j + 4) = .ok t →
    t % 256 = 1 ∨ t % 256 = 2 ∨ t % 256 = 3

/-- The memory that is read, if each slice moves the data pointer by less than `g`. -/
structure Room (m : Mem) (s : SSeq) (g : Nat) : Prop where
  pos : 1 ≤ s.chunks
  max : s.chunks ≤ 65536
  ptr : Win m s.pointers (s.pointers + 8 * (s.chunks / 32))
  hdr : Win m s.header (s.header + 8 * s.chunks)
  dat : Win m s.data (s.data + g * s.chunks + 8736)

/-- an iterator of `s`, wherever it is -/
structure ItOf (s : SSeq) (g : Nat) (it : It) : Prop where
  hdr : it.header = s.header + 8 * it.begin_
  fin : it.end_ = s.chunks
  le : it.begin_ ≤ s.chunks
  low : s.data ≤ it.data
  high : it.data ≤ s.data + g * it.begin_

variable {s : SSeq} {g : Nat} {it : It}

theorem ItOf.start (s : SSeq) (g : Nat) : ItOf s g s.begin :=
  ⟨rfl, rfl, Nat.zero_le _, Nat.le_refl _, Nat.le_add_right _ _⟩

theorem ItOf.win (h : ItOf s g it) (hr : Room m s g) : Win m it.data (it.data + 8736) := by
  intro p h1 h2
  have h3 := Nat.mul_le_mul_left g h.le
  exact hr.dat p (by have := h.low; omega) (by have := h.high; omega)

theorem has_next_iff {it : It} : it.has_next = true ↔ it.begin_ < it.end_ := by
  unfold It.has_next
  simp

theorem ItOf.next_lt (h : ItOf s g it) (hn : it.has_next = true) : it.begin_ < s.chunks := by
  rw [← h.fin]
  exact has_next_iff.mp hn

theorem runId (hr : Room m s g) (h : ItOf s g it) :
    Runs (fun i => (it.has_next = true → i < 65536) ∧ (it.has_next = false → i = 65536)) (it.id m) := by
  unfold It.id
  cases hn : it.has_next with
  | false => exact Runs.ok ⟨fun h => (nomatch h), fun _ => rfl⟩
  | true =>
    have := h.next_lt hn
    have e := h.hdr
    exact (run16 hr.hdr (by omega) (by omega)).mono (fun i hi => ⟨fun _ => hi, fun h => (nomatch h)⟩)

theorem runType (hr : Room m s g) (h : ItOf s g it) (hn : it.begin_ < s.chunks) :
    Runs (fun t => t < 256 ∧ (Legal m s → t = 1 ∨ t = 2 ∨ t = 3)) (it.type m) := by
  unfold It.type
  have e := h.hdr
  obtain ⟨x, ex, hx⟩ := run16 (a := it.header + 4) hr.hdr (by omega) (by omega)
  rw [ex, ok_bind]
  refine Runs.pure ⟨Nat.mod_lt _ (by decide), fun hl => ?_⟩
  exact hl it.begin_ hn x (by rw [← e]; exact ex)

theorem runBlocks (hr : Room m s g) (h : ItOf s g it) (hn : it.begin_ < s.chunks) :
    Runs (fun b => 1 ≤ b ∧ b ≤ 256) (it.blocks m) := by
  unfold It.blocks
  have e := h.hdr
  refine (run16 (a := it.header + 4) hr.hdr (by omega) (by omega)).bind (fun x hx => Runs.pure ?_)
  omega

theorem runCard (hr : Room m s g) (h : ItOf s g it) (hn : it.begin_ < s.chunks) :
    Runs (fun c => 1 ≤ c ∧ c ≤ 65536) (it.cardinality m) := by
  unfold It.cardinality
  have e := h.hdr
  refine (run16 (a := it.header + 2) hr.hdr (by omega) (by omega)).bind (fun x hx => Runs.pure ?_)
  omega

theorem runNext (hr : Room m s g) (h : ItOf s g it) (hg : 65536 ≤ g) (hn : it.begin_ < s.chunks) :
    Runs (fun it' => ItOf s g it' ∧ it'.begin_ = it.begin_ + 1) (it.next m) := by
  unfold It.next It.offset
  have e := h.hdr
  refine (run16 (a := it.header + 6) hr.hdr (by omega) (by omega)).bind (fun x hx => Runs.pure ?_)
  refine ⟨⟨?_, h.fin, hn, ?_, ?_⟩, rfl⟩
  · simp only; omega
  · have := h.low; simp only; omega
  · have := h.high
    simp only [Nat.mul_add, Nat.mul_one]
    omega

theorem runAdvance (hr : Room m s g) (hg : 65536 ≤ g) (v : Nat) : ∀ (f : Nat) (it : It),
    ItOf s g it → it.end_ - it.begin_ < f →
    Runs (fun it' => ItOf s g it' ∧ it.begin_ ≤ it'.begin_ ∧
      (∀ i, it.id m = .ok i → i < v → it.has_next = true → it.begin_ < it'.begin_))
      (It.advance_loop m v f it)
  | 0, _, _, hf => absurd hf (Nat.not_lt_zero _)
  | f + 1, it, h, hf => by
    unfold It.advance_loop
    obtain ⟨i, ei, -⟩ := runId hr h
    rw [ei, ok_bind]
    split
    · next hc =>
      have hn : it.has_next = true := by
        simp only [Bool.and_eq_true] at hc
        exact hc.2
      have hlt := has_next_iff.mp hn
      refine (runNext hr h hg (h.next_lt hn)).bind ?_
      rintro it' ⟨h1, h2⟩
      refine (runAdvance hr hg v f it' h1 (by rw [h1.fin, ← h.fin]; omega)).mono ?_
      rintro it'' ⟨h3, h4, -⟩
      exact ⟨h3, by omega, fun _ _ _ _ => by omega⟩
    · next hc =>
      refine Runs.pure ⟨h, Nat.le_refl _, fun j hj hlt hn => absurd ?_ hc⟩
      cases hj
      simp [hlt, hn]

theorem runAdvance' (hr : Room m s g) (hg : 65536 ≤ g) (h : ItOf s g it) (v : Nat) :
    Runs (fun it' => ItOf s g it' ∧ it.begin_ ≤ it'.begin_ ∧
      (∀ i, it.id m = .ok i → i < v → it.has_next = true → it.begin_ < it'.begin_))
      (it.advance m v) := by
  unfold It.advance
  exact runAdvance hr hg v _ it h (Nat.lt_succ_self _)

/-- an iterator that has only jumped so far -/
structure Jumping (s : SSeq) (g : Nat) (it : It) : Prop extends ItOf s g it where
  ptr : it.pointers = s.pointers + 8 * (it.begin_ / 32)
  mul : it.begin_ % 32 = 0
  more : it.begin_ < s.chunks

theorem Jumping.start (hr : Room m s g) : Jumping s g s.begin :=
  ⟨ItOf.start s g, by simp [SSeq.begin], rfl, hr.pos⟩

theorem runJump (hr : Room m s g) (hg : 134217728 ≤ g) (h : Jumping s g it)
    (hn : it.skip_position < it.end_) :
    Runs (fun it' => Jumping s g it' ∧ it'.begin_ = it.begin_ + 32) (it.jump m) := by
  unfold It.skip_position at hn
  rw [h.fin] at hn
  have e := h.hdr
  have ep := h.ptr
  have em := h.mul
  simp only [associativity] at hn
  unfold It.jump
  refine (run32 (a := it.pointers + 4) hr.ptr (by omega) (by omega)).bind (fun o ho => Runs.pure ?_)
  refine ⟨⟨⟨?_, h.fin, ?_, ?_, ?_⟩, ?_, ?_, ?_⟩, rfl⟩
  · simp only [It.skip_header, It.skip_position, associativity]; omega
  · simp only [It.skip_position, associativity]; omega
  · have := h.low; simp only; omega
  · have := h.high
    simp only [It.skip_position, associativity, Nat.mul_add]
    omega
  · simp only [It.skip_position, associativity]; omega
  · simp only [It.skip_position, associativity]; omega
  · simp only [It.skip_position, associativity]; omega

theorem runSkipValue (hr : Room m s g) (hg : 134217728 ≤ g) (v : Nat) : ∀ (f : Nat) (it : It),
    Jumping s g it → it.end_ - it.begin_ < f →
    Runs (Jumping s g) (It.skip_value_loop m v f it)
  | 0, _, _, hf => absurd hf (Nat.not_lt_zero _)
  | f + 1, it, h, hf => by
    unfold It.skip_value_loop
    split
    · next hc =>
      have hc' := hc
      unfold It.skip_position at hc'
      simp only [associativity] at hc'
      have e := h.hdr
      have ee := h.fin
      have hs : it.skip_header = it.header + 8 * 32 := rfl
      refine (run16 (a := it.skip_header) hr.hdr (by omega) (by omega)).bind (fun x hx => ?_)
      split
      · refine (runJump hr hg h hc).bind ?_
        rintro it' ⟨h1, h2⟩
        exact runSkipValue hr hg v f it' h1 (by rw [h1.fin, ← h.fin]; omega)
      · exact Runs.pure h
    · exact Runs.pure h

theorem runSkipToValue (hr : Room m s g) (hg : 134217728 ≤ g) (v : Nat) :
    Runs (fun it => ItOf s g it ∧ (v = 0 → it.begin_ < s.chunks)) (s.begin.skip_to_value m v) := by
  unfold It.skip_to_value
  refine (runSkipValue hr hg v _ _ (Jumping.start hr) (Nat.lt_succ_self _)).bind (fun it h => ?_)
  by_cases hv : v = 0
  · subst hv
    unfold It.advance
    have hlt : it.has_next = true := by
      rw [has_next_iff, h.fin]; exact h.more
    unfold It.advance_loop
    refine (runId hr h.toItOf).bind (fun i _ => ?_)
    rw [if_neg (by simp)]
    exact Runs.pure ⟨h.toItOf, fun _ => h.more⟩
  · refine (runAdvance' hr (by omega) h.toItOf v).mono ?_
    rintro it' ⟨h1, -⟩
    exact ⟨h1, fun h => absurd h hv⟩

theorem runSkipPosition (hr : Room m s g) (hg : 134217728 ≤ g) {rank : Nat} : ∀ (f : Nat) (it : It)
    (e : Nat), Jumping s g it → it.end_ - it.begin_ < f → e ≤ rank →
    Runs (fun r => Jumping s g r.1 ∧ r.2 ≤ rank) (It.skip_position_loop m rank f it e)
  | 0, _, _, _, hf, _ => absurd hf (Nat.not_lt_zero _)
  | f + 1, it, e, h, hf, he => by
    unfold It.skip_position_loop
    split
    · next hc =>
      have hc' := hc
      unfold It.skip_position at hc'
      simp only [associativity] at hc'
      have ep := h.ptr
      have em := h.mul
      have ee := h.fin
      refine (run32 (a := it.pointers) hr.ptr (by omega) (by omega)).bind (fun c hc2 => ?_)
      split
      · exact Runs.pure ⟨h, he⟩
      · next hle =>
        refine (runJump hr hg h hc).bind ?_
        rintro it' ⟨h1, h2⟩
        exact runSkipPosition hr hg f it' _ h1 (by rw [h1.fin, ← h.fin]; omega) (by omega)
    · exact Runs.pure ⟨h, he⟩

theorem runAdvancePosition (hr : Room m s g) (hg : 65536 ≤ g) {rank : Nat} (h32 : rank < 4294967296) :
    ∀ (f : Nat) (it : It) (e : Nat), ItOf s g it → it.end_ - it.begin_ < f → e ≤ rank →
    Runs (fun r => ItOf s g r.1 ∧ r.2 ≤ rank ∧ (r.1.has_next = true → rank - r.2 < 65536))
      (It.advance_position_loop m rank f it e)
  | 0, _, _, _, hf, _ => absurd hf (Nat.not_lt_zero _)
  | f + 1, it, e, h, hf, he => by
    unfold It.advance_position_loop
    cases hn : it.has_next with
    | false =>
      rw [if_neg (by simp)]
      exact Runs.pure ⟨h, he, fun h' => by simp only at h'; rw [hn] at h'; cases h'⟩
    | true =>
      rw [if_pos rfl]
      have hlt := has_next_iff.mp hn
      refine (runCard hr h (h.next_lt hn)).bind ?_
      rintro c ⟨h1, h2⟩
      split
      · next hgt =>
        refine Runs.pure ⟨h, he, fun _ => ?_⟩
        have : u32 (e + c) ≤ e + c := Nat.mod_le _ _
        simp only
        omega
      · next hle =>
        refine (runNext hr h hg (h.next_lt hn)).bind ?_
        rintro it' ⟨h1, h2⟩
        exact runAdvancePosition hr hg h32 f it' _ h1 (by rw [h1.fin, ← h.fin]; omega) (by omega)

theorem runSkipToPosition (hr : Room m s g) (hg : 134217728 ≤ g) {rank : Nat} (h32 : rank < 4294967296) :
    Runs (fun r => ItOf s g r.1 ∧ r.2 ≤ rank ∧ (r.1.has_next = true → rank - r.2 < 65536))
      (s.begin.skip_to_position m rank) := by
  unfold It.skip_to_position
  refine (runSkipPosition hr hg _ _ 0 (Jumping.start hr) (Nat.lt_succ_self _) (Nat.zero_le _)).bind ?_
  rintro ⟨it, e⟩ ⟨h1, h2⟩
  exact runAdvancePosition hr (by omega) h32 _ it e h1.toItOf (Nat.lt_succ_self _) h2

/-! ## The cases of a slice -/

theorem safeCase {α : Type} {P : α → Prop} {L : Prop} {dbg : Bool} {t : Nat} {a b c d : Res α}
    (hl : L → t = 1 ∨ t = 2 ∨ t = 3) (ha : Safe L dbg P a) (hb : Safe L dbg P b)
    (hc : Safe L dbg P c) (hd : d = unreachable dbg) :
    Safe L dbg P (if t = type_sparse then a else if t = type_dense then b
      else if t = type_full then c else d) := by
  subst hd
  split
  · exact ha
  · next h1 =>
    split
    · exact hb
    · next h2 =>
      split
      · exact hc
      · next h3 =>
        refine Safe.unreach (fun h => ?_)
        have := hl h
        simp only [type_sparse, type_dense, type_full] at h1 h2 h3
        omega

/-! ## contains -/

theorem runSparseBlockContains (hw : Win m lo hi) {begin value : Nat} (h1 : lo ≤ begin) : ∀ (n i : Nat),
    begin + i + n ≤ hi → Runs (fun _ => True) (sparse_block_contains_loop m begin value n i)
  | 0, _, _ => Runs.ok trivial
  | n + 1, i, h => by
    unfold sparse_block_contains_loop
    refine (run8 hw (by omega) (by omega)).bind (fun x _ => ?_)
    split
    · exact Runs.pure trivial
    · split
      · exact Runs.pure trivial
      · exact runSparseBlockContains hw h1 n (i + 1) (by omega)

theorem runContainsSparseLoop (hw : Win m lo hi) {value end_ : Nat} (hv : value < 65536) :
    ∀ (n f begin data : Nat), n < f → begin + 2 * n = end_ → lo ≤ begin → end_ ≤ hi →
    lo ≤ data → data + 32 * n ≤ hi →
    Runs (fun _ => True) (contains_sparse_chunk_loop dbg m value end_ f begin data)
  | _, 0, _, _, hf, _, _, _, _, _ => absurd hf (Nat.not_lt_zero _)
  | n, f + 1, begin, data, hf, he, h1, h2, h3, h4 => by
    unfold contains_sparse_chunk_loop
    simp only
    split
    · exact Runs.ok trivial
    · next hne =>
      obtain ⟨n, rfl⟩ : ∃ k, n = k + 1 := ⟨n - 1, by omega⟩
      refine (run8 hw h1 (by omega)).bind (fun id hid => ?_)
      split
      · exact Runs.pure trivial
      · refine (run8 hw (by omega) (by omega)).bind (fun c1 hc1 => ?_)
        split
        · next hid2 =>
          have hs : sub32 value (id * 256) = value - id * 256 := sub32_eq (by omega) (by omega)
          refine (Runs.cassert (by simp; omega)).bind (fun _ _ => ?_)
          rw [hs]
          split
          · exact runSparseBlockContains hw h3 _ 0 (by omega)
          · exact runBitmapContains (runMem (n := 4) hw h3 (by omega)) (by omega)
        · refine runContainsSparseLoop hw hv n f _ _ (by omega) (by omega) (by omega) h2 (by omega) ?_
          split <;> omega

theorem runContainsSparse {data blocks value : Nat} (hw : Win m data (data + 8736)) (hv : value < 65536)
    (hb : 1 ≤ blocks ∧ blocks ≤ 256) :
    Runs (fun _ => True) (contains_sparse_chunk dbg m data blocks value) := by
  unfold contains_sparse_chunk
  refine (Runs.cassert (by simp; omega)).bind (fun _ _ => ?_)
  exact runContainsSparseLoop hw hv blocks _ _ _ (Nat.lt_succ_self _) (by omega) (Nat.le_refl _)
    (by omega) (by omega) (by omega)

theorem safeContains (hr : Room m s g) (hg : 134217728 ≤ g) (value : Nat) (hv : value < 4294967296) :
    Safe (Legal m s) dbg (fun _ => True) (s.contains dbg m value) := by
  unfold SSeq.contains
  refine (runSkipToValue hr hg (value / 65536)).bindS ?_
  rintro it ⟨h, -⟩
  refine (runId hr h).bindS (fun i hi => ?_)
  split
  · next hc =>
    have hn : it.begin_ < s.chunks := by
      refine h.next_lt ?_
      cases hb : it.has_next with
      | true => rfl
      | false => have := hi.2 hb; omega
    refine (runType hr h hn).bindS ?_
    rintro t ⟨-, ht⟩
    have hw := h.win hr
    refine safeCase ht ?_ (runBitmapContains (runMem (n := 1024) hw (Nat.le_refl _) (by omega))
      (by omega)).safe (Runs.pure trivial).safe rfl
    refine (runBlocks hr h hn).bindS (fun b hb => ?_)
    exact (runContainsSparse hw (by omega) hb).safe
  · exact (Runs.pure trivial).safe

/-! ## decode -/

theorem runDecodeLane (hw : Win m lo hi) {src base : Nat} {out : List Nat} {p : Nat} (h1 : lo ≤ src)
    (h2 : src + 16 ≤ hi) (hc : p + 8 ≤ out.length) :
    Runs (SameLen out) (decode_lane m src base out p) := by
  unfold decode_lane
  refine (runLddqu hw h1 h2).bind (fun v hv => ?_)
  unfold storeu
  refine runWrs _ ?_
  unfold cvtAdd
  rw [List.length_map, List.length_take]
  omega

/-- The number of bytes read and of slots written depends on whether there are more than 8 elements. -/
theorem runDecodeSparseBlock (hw : Win m lo hi) {begin c base : Nat} {out : List Nat} {p : Nat}
    (h1 : lo ≤ begin) (h2 : begin + (if c ≤ 8 then 16 else 40) ≤ hi)
    (hcap : p + (if c ≤ 8 then 8 else 32) ≤ out.length) :
    Runs (fun r => r.1 = c ∧ r.2.length = out.length) (decode_sparse_block m begin c base out p) := by
  unfold decode_sparse_block
  by_cases h8 : c ≤ 8
  · simp only [if_pos h8] at h2 hcap ⊢
    refine (runDecodeLane hw (by omega) (by omega) (by omega)).bind (fun o ho => Runs.pure ⟨rfl, ho⟩)
  · simp only [if_neg h8] at h2 hcap ⊢
    refine (runDecodeLane hw (by omega) (by omega) (by omega)).bind (fun o1 e1 => ?_)
    refine (runDecodeLane hw (by omega) (by omega) (by rw [e1]; omega)).bind (fun o2 e2 => ?_)
    refine (runDecodeLane hw (by omega) (by omega) (by rw [e2, e1]; omega)).bind (fun o3 e3 => ?_)
    refine (runDecodeLane hw (by omega) (by omega) (by rw [e3, e2, e1]; omega)).bind (fun o4 e4 => ?_)
    exact Runs.pure ⟨rfl, by simp only; rw [e4, e3, e2, e1]⟩

theorem runDecodeSparseLoop (hw : Win m lo hi) {base end_ : Nat} :
    ∀ (n f begin data : Nat) (out : List Nat) (tmp : Nat), n < f → begin + 2 * n = end_ → lo ≤ begin →
    end_ ≤ hi → lo ≤ data → data + 32 * n + 8 ≤ hi → tmp + 256 * n ≤ out.length →
    Runs (fun r => tmp ≤ r.1 ∧ r.1 ≤ tmp + 256 * n ∧ r.2.length = out.length)
      (decode_sparse_chunk_loop m base end_ f begin data out tmp)
  | _, 0, _, _, _, _, hf, _, _, _, _, _, _ => absurd hf (Nat.not_lt_zero _)
  | n, f + 1, begin, data, out, tmp, hf, he, h1, h2, h3, h4, hc => by
    unfold decode_sparse_chunk_loop
    split
    · exact Runs.ok ⟨Nat.le_refl _, by simp only; omega, rfl⟩
    · next hne =>
      obtain ⟨n, rfl⟩ : ∃ k, n = k + 1 := ⟨n - 1, by omega⟩
      refine (run8 hw h1 (by omega)).bind (fun id hid => ?_)
      refine (run8 hw (by omega) (by omega)).bind (fun c1 hc1 => ?_)
      simp only
      split
      · refine (runDecodeSparseBlock hw h3 (by split <;> omega) (by split <;> omega)).bind ?_
        rintro ⟨k, o⟩ ⟨hk, ho⟩
        simp only at hk ho ⊢
        refine (runDecodeSparseLoop hw n f _ _ o _ (by omega) (by omega) (by omega) h2 (by omega)
          (by omega) (by omega)).mono ?_
        rintro ⟨q, o'⟩ ⟨q1, q2, q3⟩
        simp only at q1 q2 q3 ⊢
        omega
      · refine (runDecodeBitmap (n := 4) (runMem hw h3 (by omega)) (room_one hc)).bind ?_
        rintro ⟨k, o⟩ ⟨hk, ho⟩
        simp only at hk ho ⊢
        refine (runDecodeSparseLoop hw n f _ _ o _ (by omega) (by omega) (by omega) h2 (by omega)
          (by omega) (by omega)).mono ?_
        rintro ⟨q, o'⟩ ⟨q1, q2, q3⟩
        simp only at q1 q2 q3 ⊢
        omega

theorem runDecodeSparse {data blocks base p : Nat} {out : List Nat} (hw : Win m data (data + 8736))
    (hb : 1 ≤ blocks ∧ blocks ≤ 256) (hc : p + 65536 ≤ out.length) :
    Runs (fun r => r.1 ≤ 65536 ∧ r.2.length = out.length)
      (decode_sparse_chunk dbg m data blocks base out p) := by
  unfold decode_sparse_chunk
  refine (Runs.cassert (by simp; omega)).bind (fun _ _ => ?_)
  refine (runDecodeSparseLoop hw blocks _ _ _ _ _ (Nat.lt_succ_self _) (by omega) (Nat.le_refl _)
    (by omega) (by omega) (by omega) (by omega)).bind ?_
  rintro ⟨q, o⟩ ⟨h1, h2, h3⟩
  simp only at h1 h2 h3
  exact Runs.pure ⟨by simp only; omega, h3⟩

theorem runDecodeFull {base p : Nat} {out : List Nat} (hc : p + 65536 ≤ out.length) :
    Runs (fun r => r.1 ≤ 65536 ∧ r.2.length = out.length) (decode_full_chunk base out p) := by
  unfold decode_full_chunk
  refine (runWrs _ (by rw [List.length_map, List.length_range]; exact hc)).bind (fun o ho => ?_)
  exact Runs.pure ⟨Nat.le_refl _, ho⟩

theorem safeDecodeChunk (hr : Room m s g) (h : ItOf s g it) (hn : it.begin_ < s.chunks) {p : Nat}
    {out : List Nat} (hc : p + 65536 ≤ out.length) :
    Safe (Legal m s) dbg (fun r => r.1 ≤ 65536 ∧ r.2.length = out.length)
      (decode_chunk dbg m it out p) := by
  unfold decode_chunk
  refine (runId hr h).bindS (fun i hi => ?_)
  refine (runType hr h hn).bindS ?_
  rintro t ⟨-, ht⟩
  have hw := h.win hr
  refine safeCase ht ?_ (runDecodeBitmap (runMem (n := 1024) hw (Nat.le_refl _) (by omega))
    (by omega)).safe (runDecodeFull hc).safe rfl
  refine (runBlocks hr h hn).bindS (fun b hb => ?_)
  exact (runDecodeSparse hw hb hc).safe

theorem safeDecodeLoop (hr : Room m s g) (hg : 65536 ≤ g) : ∀ (n : Nat) (it : It) (out : List Nat)
    (p : Nat), ItOf s g it → it.begin_ + n = s.chunks → p + 65536 * n ≤ out.length →
    Safe (Legal m s) dbg (fun r => p ≤ r.1 ∧ r.1 ≤ p + 65536 * n ∧ r.2.length = out.length)
      (decode_loop dbg m n it out p)
  | 0, _, _, _, _, _, _ => (Runs.ok ⟨Nat.le_refl _, Nat.le_refl _, rfl⟩).safe
  | n + 1, it, out, p, h, hn, hc => by
    unfold decode_loop
    have hp : p + 65536 ≤ out.length := room_one hc
    refine (safeDecodeChunk hr h (by omega) hp).bind ?_
    rintro ⟨k, o⟩ ⟨h1, h2⟩
    simp only at h1 h2
    refine (runNext hr h hg (by omega)).bindS ?_
    rintro it' ⟨h3, h4⟩
    refine (safeDecodeLoop hr hg n it' o _ h3 (by omega) (by omega)).mono ?_
    rintro ⟨q, o'⟩ ⟨q1, q2, q3⟩
    simp only at q1 q2 q3 ⊢
    omega

theorem safeDecode (hr : Room m s g) (hg : 65536 ≤ g) {out : List Nat} {p : Nat}
    (hc : p + 65536 * s.chunks ≤ out.length) :
    Safe (Legal m s) dbg (fun r => r.1 ≤ 65536 * s.chunks ∧ r.2.length = out.length)
      (s.decode dbg m out p) := by
  unfold SSeq.decode
  refine (safeDecodeLoop hr hg s.chunks _ out p (ItOf.start s g) (Nat.zero_add _) hc).bind ?_
  rintro ⟨q, o⟩ ⟨h1, h2, h3⟩
  simp only at h1 h2 h3
  exact (Runs.pure ⟨by simp only; omega, h3⟩).safe

/-! ## cardinality -/

theorem runCardinality (hr : Room m s g) : Runs (fun _ => True) (s.cardinality m) := by
  have key : ∀ (n h c : Nat), s.header ≤ h → h + 8 * n ≤ s.header + 8 * s.chunks →
      Runs (fun _ => True) (cardinality_loop m n h c) := by
    intro n
    induction n with
    | zero => intro h c _ _; exact Runs.ok trivial
    | succ n ih =>
      intro h c h1 h2
      unfold cardinality_loop
      refine (run16 hr.hdr (by omega) (by omega)).bind (fun x _ => ?_)
      exact ih _ _ (by omega) (by omega)
  unfold SSeq.cardinality
  exact key _ _ _ (Nat.le_refl _) (Nat.le_refl _)

/-! ## uncompress -/

theorem runMemcpy {b : Words} {N : Nat} (hb : WRuns b N) (p : Nat) : ∀ (n i : Nat) (out : List Nat),
    i + n ≤ N → p + i + n ≤ out.length → Runs (SameLen out) (memcpy_words b n i out p)
  | 0, _, _, _, _ => Runs.ok rfl
  | n + 1, i, out, h1, h2 => by
    unfold memcpy_words
    refine (hb i (by omega)).bind (fun w _ => ?_)
    refine (runWr w (by omega)).bind ?_
    rintro o ⟨ho, -⟩
    exact (runMemcpy hb p n (i + 1) o (by omega) (by omega)).mono (fun o' h => by
      show o'.length = out.length
      rw [h, ho])

theorem runUncompressSparseBlockLoop (hw : Win m lo hi) {end_ p : Nat} : ∀ (n f begin : Nat)
    (out : List Nat), n + 1 < f → begin + (n + 1) = end_ → lo ≤ begin → end_ ≤ hi →
    p + 4 ≤ out.length → Runs (SameLen out) (uncompress_sparse_block_loop m end_ f begin out p)
  | _, 0, _, _, hf, _, _, _, _ => absurd hf (Nat.not_lt_zero _)
  | n, f + 1, begin, out, hf, he, h1, h2, hc => by
    unfold uncompress_sparse_block_loop
    refine (run8 hw h1 (by omega)).bind (fun pos hp => ?_)
    have hlt : p + pos / 64 < out.length := by omega
    simp only [rdv_of (List.getElem?_eq_getElem hlt), ok_bind]
    refine (runWr _ hlt).bind ?_
    rintro o ⟨ho, -⟩
    split
    · exact Runs.pure ho
    · obtain ⟨n, rfl⟩ : ∃ k, n = k + 1 := ⟨n - 1, by omega⟩
      exact (runUncompressSparseBlockLoop hw n f _ o (by omega) (by omega) (by omega) h2
        (by omega)).mono (fun o' h => by
          show o'.length = out.length
          rw [h, ho])

theorem runUncompressSparseBlock (hw : Win m lo hi) {begin c p : Nat} {out : List Nat} (h0 : 1 ≤ c)
    (h1 : lo ≤ begin) (h2 : begin + c ≤ hi) (hc : p + 4 ≤ out.length) :
    Runs (SameLen out) (uncompress_sparse_block m begin c out p) := by
  unfold uncompress_sparse_block
  exact runUncompressSparseBlockLoop hw (c - 1) _ _ out (by omega) (by omega) h1 h2 hc

theorem runUncompressSparseLoop (hw : Win m lo hi) {p : Nat} : ∀ (n begin data prev : Nat)
    (out : List Nat) (bitmap : Nat), lo ≤ begin → begin + 2 * n ≤ hi → lo ≤ data →
    data + 32 * n ≤ hi → bitmap = p + 4 * prev → p + 1024 ≤ out.length →
    Runs (SameLen out) (uncompress_sparse_chunk_loop m n begin data prev out bitmap)
  | 0, _, _, _, _, _, _, _, _, _, _, _ => Runs.ok rfl
  | n + 1, begin, data, prev, out, bitmap, h1, h2, h3, h4, hb, hc => by
    unfold uncompress_sparse_chunk_loop
    refine (run8 hw h1 (by omega)).bind (fun id hid => ?_)
    refine (run8 hw (by omega) (by omega)).bind (fun c1 hc1 => ?_)
    have e : bitmap + id * block_size_in_64bit_words - prev * block_size_in_64bit_words
        = p + 4 * id := by
      simp only [block_size_in_64bit_words]; omega
    simp only [e]
    split
    · refine (runUncompressSparseBlock hw (by omega) h3 (by omega) (by omega)).bind (fun o ho => ?_)
      exact (runUncompressSparseLoop hw n _ _ id o _ (by omega) (by omega) (by omega) (by omega) rfl
        (by rw [ho]; omega)).mono (fun o' h => by show o'.length = out.length; rw [h, ho])
    · unfold uncompress_dense_block
      refine (runMemcpy (N := 4) (runMem hw h3 (by omega)) _ _ 0 out (by decide)
        (by simp only [block_size]; omega)).bind (fun o ho => ?_)
      exact (runUncompressSparseLoop hw n _ _ id o _ (by omega) (by omega) (by omega) (by omega) rfl
        (by rw [ho]; omega)).mono (fun o' h => by show o'.length = out.length; rw [h, ho])

theorem runUncompressSparse {data blocks p : Nat} {out : List Nat} (hw : Win m data (data + 8736))
    (hb : 1 ≤ blocks ∧ blocks ≤ 256) (hc : p + 1024 ≤ out.length) :
    Runs (SameLen out) (uncompress_sparse_chunk dbg m data blocks out p) := by
  unfold uncompress_sparse_chunk
  refine (Runs.cassert (by simp; omega)).bind (fun _ _ => ?_)
  exact runUncompressSparseLoop hw blocks _ _ 0 out p (Nat.le_refl _) (by omega) (by omega) (by omega)
    (by omega) hc

theorem safeUncompressChunk (hr : Room m s g) (h : ItOf s g it) (hn : it.begin_ < s.chunks) {p : Nat}
    {out : List Nat} (hc : p + 1024 ≤ out.length) :
    Safe (Legal m s) dbg (fun r => 1 ≤ r.1 ∧ r.1 ≤ 65536 ∧ r.2.length = out.length)
      (uncompress_chunk dbg m it out p) := by
  unfold uncompress_chunk
  refine (runType hr h hn).bindS ?_
  rintro t ⟨-, ht⟩
  have hw := h.win hr
  have rest : ∀ o, SameLen out o → Safe (Legal m s) dbg
      (fun r => 1 ≤ r.1 ∧ r.1 ≤ 65536 ∧ r.2.length = out.length) (do
        let c ← it.cardinality m
        return (c, o)) := fun o ho =>
    (runCard hr h hn).bindS (fun c hc => (Runs.pure ⟨hc.1, hc.2, ho⟩).safe)
  simp only
  refine safeCase ht ?_ ?_ ?_ unreachable_bind
  · refine (runWrs _ (by rw [List.length_replicate]; exact hc)).bindS (fun o ho => ?_)
    refine (runBlocks hr h hn).bindS (fun b hb => ?_)
    exact (runUncompressSparse hw hb (by rw [ho]; exact hc)).bindS (fun o' h' => rest o' (by
      show o'.length = out.length
      rw [h', ho]))
  · unfold uncompress_dense_chunk
    exact (runMemcpy (N := 1024) (runMem hw (Nat.le_refl _) (by omega)) _ _ 0 out (by decide)
      (by simp only [chunk_size]; omega)).bindS rest
  · unfold uncompress_full_chunk
    exact (runWrs _ (by rw [List.length_replicate]; exact hc)).bindS rest

theorem safeUncompressLoop (hr : Room m s g) (hg : 65536 ≤ g) : ∀ (n : Nat) (it : It) (prev : Nat)
    (out : List Nat) (p u : Nat), ItOf s g it → it.begin_ + n = s.chunks → p = 1024 * prev →
    67108864 ≤ out.length →
    Safe (Legal m s) dbg (fun r => u + n ≤ r.1 ∧ r.1 ≤ u + 65536 * n ∧ r.2.length = out.length)
      (uncompress_loop dbg m n it prev out p u)
  | 0, _, _, _, _, _, _, _, _, _ => (Runs.ok ⟨Nat.le_refl _, Nat.le_refl _, rfl⟩).safe
  | n + 1, it, prev, out, p, u, h, hn, hp, hc => by
    unfold uncompress_loop
    refine (runId hr h).bindS (fun i hi => ?_)
    have hlt : u16 i < 65536 := Nat.mod_lt _ (by decide)
    have e : p + u16 i * chunk_size_in_64bit_words - prev * chunk_size_in_64bit_words
        = 1024 * u16 i := by
      simp only [chunk_size_in_64bit_words]; omega
    simp only [e]
    refine (safeUncompressChunk hr h (by omega) (by omega)).bind ?_
    rintro ⟨c, o⟩ ⟨h1, h2, h3⟩
    simp only at h1 h2 h3 ⊢
    refine (runNext hr h hg (by omega)).bindS ?_
    rintro it' ⟨h4, h5⟩
    refine (safeUncompressLoop hr hg n it' _ o _ _ h4 (by omega) rfl (by omega)).mono ?_
    rintro ⟨q, o'⟩ ⟨q1, q2, q3⟩
    simp only at q1 q2 q3 ⊢
    omega

theorem safeUncompress (hr : Room m s g) (hg : 65536 ≤ g) {out : List Nat}
    (hc : 67108864 ≤ out.length) :
    Safe (Legal m s) dbg (fun r => r.1 ≤ 65536 * s.chunks ∧ r.2.length = out.length)
      (s.uncompress dbg m out) := by
  unfold SSeq.uncompress
  have hp := hr.pos
  refine (safeUncompressLoop hr hg s.chunks _ 0 out 0 0 (ItOf.start s g) (Nat.zero_add _) rfl hc).bind ?_
  rintro ⟨q, o⟩ ⟨h1, h2, h3⟩
  simp only at h1 h2 h3 ⊢
  refine (Runs.cassert (by simp; omega)).bindS (fun _ _ => ?_)
  exact (Runs.pure ⟨by simp only; omega, h3⟩).safe

end Sliced
