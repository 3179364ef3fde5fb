/-!
# The abstract machine: outcomes, memory, output buffers, integer truncation, intrinsics

Nothing in this file corresponds to a single function of the library; it fixes the meaning of the
C++/x86 primitives the library is written with.  Simplifications are listed in `DESIGN.md`.
-/
namespace Sliced

/-- Abnormal outcomes.  `ub`: undefined behaviour (out-of-bounds access, `__builtin_ctzll(0)`,
`__builtin_unreachable()`); `abort`: a failed `assert` in a debug build; `exc`: a C++ exception;
`diverge`: a fuelled loop of the model ran out of fuel. -/
inductive Err where
  | ub
  | abort
  | exc
  | diverge
  deriving DecidableEq, Repr

/-- Result of running a piece of code. -/
abbrev Res (α : Type) := Except Err α

instance [DecidableEq α] : DecidableEq (Res α) := fun a b =>
  match a, b with
  | .ok x, .ok y => if h : x = y then isTrue (h ▸ rfl) else isFalse (by intro h'; cases h'; exact h rfl)
  | .error x, .error y =>
      if h : x = y then isTrue (h ▸ rfl) else isFalse (by intro h'; cases h'; exact h rfl)
  | .ok _, .error _ => isFalse (by intro h; cases h)
  | .error _, .ok _ => isFalse (by intro h; cases h)

/-- Readable memory: address ↦ byte; `none` means that reading is out of bounds. -/
abbrev Mem := Nat → Option UInt8

/-- conversion to `uint8_t` -/
def u8 (x : Nat) : Nat := x % 256
/-- conversion to `uint16_t` -/
def u16 (x : Nat) : Nat := x % 65536
/-- conversion to `uint32_t` -/
def u32 (x : Nat) : Nat := x % 4294967296
/-- conversion to `uint64_t` -/
def u64 (x : Nat) : Nat := x % 18446744073709551616
/-- `uint32_t` subtraction (wraps) -/
def sub32 (x y : Nat) : Nat := u32 (x + (4294967296 - u32 y))

/-- load one byte -/
def rd8 (m : Mem) (a : Nat) : Res Nat :=
  match m a with
  | some b => .ok b.toNat
  | none => .error .ub
/-- little-endian 16-bit load (alignment is not modelled: x86) -/
def rd16 (m : Mem) (a : Nat) : Res Nat := do
  let b0 ← rd8 m a
  let b1 ← rd8 m (a + 1)
  return b0 + 256 * b1
/-- little-endian 32-bit load -/
def rd32 (m : Mem) (a : Nat) : Res Nat := do
  let h0 ← rd16 m a
  let h1 ← rd16 m (a + 2)
  return h0 + 65536 * h1
/-- little-endian 64-bit load -/
def rd64 (m : Mem) (a : Nat) : Res Nat := do
  let w0 ← rd32 m a
  let w1 ← rd32 m (a + 4)
  return w0 + 4294967296 * w1

/-- bounds-checked store into a buffer (the list length is the capacity) -/
def wr (out : List Nat) (i v : Nat) : Res (List Nat) :=
  if i < out.length then .ok (out.set i v) else .error .ub
/-- bounds-checked load from a buffer -/
def rdv (v : List Nat) (i : Nat) : Res Nat :=
  match v[i]? with
  | some x => .ok x
  | none => .error .ub
/-- store consecutive elements from index `p` on -/
def wrs (out : List Nat) (p : Nat) : List Nat → Res (List Nat)
  | [] => .ok out
  | v :: vs => do
    let out ← wr out p v
    wrs out (p + 1) vs

/-- `assert(cond)`: compiled out in release builds (`dbg = false`) -/
def cassert (dbg : Bool) (cond : Bool) : Res Unit :=
  if dbg && !cond then .error .abort else .ok ()
/-- `assert(false); __builtin_unreachable();` -/
def unreachable (dbg : Bool) : Res α :=
  if dbg then .error .abort else .error .ub

/-! ## Intrinsics -/

/-- `__builtin_ctzll`; undefined for 0 -/
def ctz (w : Nat) : Res Nat :=
  match (List.range 64).find? (fun j => w.testBit j) with
  | some r => .ok r
  | none => .error .ub
/-- `__builtin_clzll`; undefined for 0 -/
def clz (w : Nat) : Res Nat :=
  match (List.range 64).find? (fun j => w.testBit (63 - j)) with
  | some r => .ok r
  | none => .error .ub
/-- `tzcnt`: like `ctz`, but 64 for 0 -/
def tzcnt (w : Nat) : Nat := ((List.range 64).find? (fun j => w.testBit j)).getD 64
/-- `__builtin_popcountll` / `_mm_popcnt_u32` -/
def popcount (w : Nat) : Nat := ((List.range 64).filter (fun j => w.testBit j)).length
/-- `pdep` (Intel SDM): scan the mask upwards from bit `b`; `k` is the next source bit -/
def pdepLoop (src mask : Nat) : Nat → Nat → Nat → Nat → Nat
  | 0, _, _, dst => dst
  | n + 1, b, k, dst =>
    if mask.testBit b then
      pdepLoop src mask n (b + 1) (k + 1) (if src.testBit k then dst ||| 2 ^ b else dst)
    else pdepLoop src mask n (b + 1) k dst
/-- `pdep dst, src, mask` on 64-bit registers -/
def pdep (src mask : Nat) : Nat := pdepLoop src mask 64 0 0 0
/-- `_mm_lddqu_si128`: 16 bytes are really read -/
def lddqu (m : Mem) (a : Nat) : Res (List Nat) := (List.range 16).mapM (fun k => rd8 m (a + k))
/-- `_mm256_cvtepu8_epi32` of the low 8 bytes followed by `_mm256_add_epi32` with the
broadcast base -/
def cvtAdd (base : Nat) (v : List Nat) : List Nat := (v.take 8).map (fun x => u32 (base + x))
/-- `_mm256_storeu_si256`: 8 lanes are really written -/
def storeu (out : List Nat) (p : Nat) (v : List Nat) : Res (List Nat) := wrs out p v

end Sliced
