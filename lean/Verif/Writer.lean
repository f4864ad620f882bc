import Verif.Basic
/-!
# `Writer`

Model of `riegeli/bytes/writer.{h,cc}`: public functions of `Writer` over the virtual functions of a class, and the contract of a
class (`WriterOps.Lawful`). A writer has a current position, and presents the contents which its destination will have when the data
written so far are flushed (`view`); `dest` are the contents which the destination has now.

Not modelled: stringification of numbers, moving, `AssertInitialized()`.
-/
namespace Riegeli.Wtr

/-- The contents `c` after writing `bs` at the position `p`, like `pwrite()` does this: writing past the end fills the gap with zeros. -/
def overlay (c : Bytes) (p : Nat) (bs : Bytes) : Bytes :=
  if bs = [] then c else c.take p ++ List.replicate (p - c.length) 0 ++ bs ++ c.drop (p + bs.length)

/-- The contents `c` after changing the size to `n`, like `ftruncate()` does this: extending adds zeros. -/
def resize (n : Nat) (c : Bytes) : Bytes := c.take n ++ List.replicate (n - c.length) 0

/-- `FlushType` (`riegeli/base/types.h:39-50`). -/
inductive FlushType where
  | fromObject
  | fromProcess
  | fromMachine

/-- `kMaxBytesToCopy` (`riegeli/base/buffering.h:41`). -/
def kMaxBytesToCopy : Nat := 511

/-- Virtual functions and buffer of a class derived from `Writer`. `put bs` copies `bs` to `cursor()` and calls `move_cursor()`, for at
most `available()` bytes. -/
structure WriterOps (σ : Type) where
  pos : σ → Nat
  avail : σ → Nat
  ok : σ → Bool
  put : Bytes → σ → σ
  pushSlow : Nat → Nat → σ → Bool × σ
  writeSlow : Bytes → σ → Bool × σ
  fillSlow : Nat → UInt8 → σ → Bool × σ
  flushImpl : FlushType → σ → Bool × σ
  seekSlow : Nat → σ → Bool × σ
  sizeImpl : σ → Option Nat × σ
  truncateImpl : Nat → σ → Bool × σ
  readModeImpl : Nat → σ → Bool × σ
  randomAccess : σ → Bool × σ
  setHint : Option Nat → σ → σ

namespace WriterOps
variable {σ : Type} (W : WriterOps σ)

/-- `Push()` (`writer.h:618-628`). -/
def push (n rec : Nat) (s : σ) : Bool × σ := if n ≤ W.avail s then (true, s) else W.pushSlow n rec s

/-- `Write(char)` (`writer.h:653-658`). -/
def writeChar (b : UInt8) (s : σ) : Bool × σ :=
  let r := W.push 1 0 s
  if r.1 = false then (false, r.2) else (true, W.put [b] r.2)

/-- `Write(BytesRef)` (`writer.h:660-668`). -/
def write (bs : Bytes) (s : σ) : Bool × σ := if bs.length ≤ W.avail s then (true, W.put bs s) else W.writeSlow bs s

/-- `Write(ExternalRef)` (`writer.h:670-679`) with `WriteSlow(ExternalRef)` (`writer.cc:198-203`). -/
def writeExternal (bs : Bytes) (s : σ) : Bool × σ :=
  if bs.length ≤ W.avail s ∧ bs.length ≤ kMaxBytesToCopy then (true, W.put bs s) else W.write bs s

/-- The loop of `WriteSlow(Chain)` and `WriteSlow(Cord)` (`writer.cc:205-213`, `writer.cc:223-235`). -/
def writeFragments : List Bytes → σ → Bool × σ
  | [], s => (true, s)
  | f :: fs, s =>
    let r := W.write f s
    if r.1 = false then (false, r.2) else writeFragments fs r.2

/-- `Write(Chain)` and `Write(Cord)` (`writer.cc:80-94`, `writer.cc:112-126`) for a chain with the given blocks. -/
def writeChain (fs : List Bytes) (s : σ) : Bool × σ :=
  if fs.flatten.length ≤ W.avail s ∧ fs.flatten.length ≤ kMaxBytesToCopy then (true, W.put fs.flatten s) else W.writeFragments fs s

/-- `Write(ByteFill)` (`writer.h:687-697`). -/
def fill (n : Nat) (b : UInt8) (s : σ) : Bool × σ :=
  if n ≤ W.avail s ∧ n ≤ kMaxBytesToCopy then (true, W.put (List.replicate n b) s) else W.fillSlow n b s

/-- `Seek()` (`writer.h:761-765`). -/
def seek (q : Nat) (s : σ) : Bool × σ := if q = W.pos s then (true, s) else W.seekSlow q s

/-- `WriteSlow(string_view)` (`writer.cc:182-196`), for classes which do not override it. The first argument bounds the number of iterations; the
length of `bs` + 1 is enough. -/
def defaultWriteSlow : Nat → Bytes → σ → Bool × σ
  | 0, _, s => (false, s)
  | fuel + 1, bs, s =>
    let a := W.avail s
    let s := W.put (bs.take a) s
    let bs := bs.drop a
    let r := W.pushSlow 1 bs.length s
    if r.1 = false then (false, r.2)
    else if W.avail r.2 < bs.length then defaultWriteSlow fuel bs r.2
    else (true, W.put bs r.2)

/-- `WriteSlow(ByteFill)` (`writer.cc:245-261`), for classes which do not override it. The first argument bounds the number of
iterations; `n + 1` is enough. -/
def defaultFillSlow : Nat → Nat → UInt8 → σ → Bool × σ
  | 0, _, _, s => (false, s)
  | fuel + 1, n, b, s =>
    let a := W.avail s
    if a < n then
      let s := W.put (List.replicate a b) s
      let r := W.push 1 (n - a) s
      if r.1 = false then (false, r.2) else defaultFillSlow fuel (n - a) b r.2
    else (true, W.put (List.replicate n b) s)

end WriterOps

/-! ## The contract -/

section
variable {σ : Type} (W : WriterOps σ) (view dest : σ → Bytes)

/-- Each byte of `d'` is a byte of `d`, `v` or `w` at the same position, and it ends where one of them ends, except that it may end between
`p` and `q`. -/
def Mixed (p q : Nat) (d v w d' : Bytes) : Prop :=
  ∀ i : Nat, d'[i]? = d[i]? ∨ d'[i]? = v[i]? ∨ d'[i]? = w[i]? ∨ (p ≤ i ∧ i < q ∧ d'[i]? = none)

/-- What writing `bs` must do. On failure the destination has parts of the data written, and
its contents which should have been overwritten may be missing at the end. -/
def WritePost (Inv : σ → Prop) (bs : Bytes) (s : σ) (r : Bool × σ) : Prop :=
  Inv r.2 ∧
  (r.1 = true → view r.2 = overlay (view s) (W.pos s) bs ∧ W.pos r.2 = W.pos s + bs.length ∧ W.ok r.2 = W.ok s) ∧
  (r.1 = false → W.ok r.2 = false) ∧
  (W.ok s = false → W.ok r.2 = false ∧ dest r.2 = dest s) ∧
  Mixed (W.pos s) (W.pos s + bs.length) (dest s) (view s) (overlay (view s) (W.pos s) bs) (dest r.2)

/-- The contract of `Writer` (`writer.h`). -/
structure WriterOps.Lawful (Inv : σ → Prop) : Prop where
  avail : ∀ s, Inv s → W.ok s = false → W.avail s = 0
  put : ∀ bs s, Inv s → bs.length ≤ W.avail s → Inv (W.put bs s) ∧ view (W.put bs s) = overlay (view s) (W.pos s) bs ∧
    W.pos (W.put bs s) = W.pos s + bs.length ∧ W.avail (W.put bs s) = W.avail s - bs.length ∧ W.ok (W.put bs s) = W.ok s ∧
    dest (W.put bs s) = dest s
  pushSlow : ∀ n rec s, Inv s → W.avail s < n → WritePost W view dest Inv [] s (W.pushSlow n rec s) ∧
    ((W.pushSlow n rec s).1 = true → n ≤ W.avail (W.pushSlow n rec s).2 ∧ W.ok s = true)
  writeSlow : ∀ bs s, Inv s → W.avail s < bs.length → WritePost W view dest Inv bs s (W.writeSlow bs s) ∧
    ((W.writeSlow bs s).1 = true → W.ok s = true)
  fillSlow : ∀ n b s, Inv s → min (W.avail s) kMaxBytesToCopy < n →
    WritePost W view dest Inv (List.replicate n b) s (W.fillSlow n b s) ∧ ((W.fillSlow n b s).1 = true → W.ok s = true)
  flushImpl : ∀ t s, Inv s → WritePost W view dest Inv [] s (W.flushImpl t s) ∧
    ((W.flushImpl t s).1 = true → W.ok s = true ∧ (t ≠ .fromObject → dest (W.flushImpl t s).2 = view s))
  seekSlow : ∀ q s, Inv s → q ≠ W.pos s → Inv (W.seekSlow q s).2 ∧
    (W.ok (W.seekSlow q s).2 = true → view (W.seekSlow q s).2 = view s) ∧
    ((W.seekSlow q s).1 = true → W.ok s = true ∧ W.ok (W.seekSlow q s).2 = true ∧ W.pos (W.seekSlow q s).2 = q ∧
      q ≤ max (view s).length (W.pos s)) ∧
    ((W.seekSlow q s).1 = false → W.ok (W.seekSlow q s).2 = false ∨
      (W.pos (W.seekSlow q s).2 = (view s).length ∧ (view s).length < q)) ∧
    (W.ok s = false → W.ok (W.seekSlow q s).2 = false ∧ dest (W.seekSlow q s).2 = dest s) ∧
    Mixed 0 0 (dest s) (view s) (view s) (dest (W.seekSlow q s).2)
  sizeImpl : ∀ s, Inv s → Inv (W.sizeImpl s).2 ∧
    (∀ n, (W.sizeImpl s).1 = some n → n = (view s).length ∧ view (W.sizeImpl s).2 = view s ∧ W.pos (W.sizeImpl s).2 = W.pos s ∧
      W.ok s = true ∧ W.ok (W.sizeImpl s).2 = true) ∧
    ((W.sizeImpl s).1 = none → W.ok (W.sizeImpl s).2 = false) ∧
    (W.ok s = false → W.ok (W.sizeImpl s).2 = false ∧ dest (W.sizeImpl s).2 = dest s) ∧
    Mixed 0 0 (dest s) (view s) (view s) (dest (W.sizeImpl s).2)
  truncateImpl : ∀ n s, Inv s → (W.randomAccess s).1 = true → Inv (W.truncateImpl n s).2 ∧
    ((W.truncateImpl n s).1 = true → n ≤ max (view s).length (W.pos s) ∧ view (W.truncateImpl n s).2 = resize n (view s) ∧
      W.pos (W.truncateImpl n s).2 = n ∧ W.ok s = true ∧ W.ok (W.truncateImpl n s).2 = true) ∧
    ((W.truncateImpl n s).1 = false → W.ok (W.truncateImpl n s).2 = false ∨
      (view (W.truncateImpl n s).2 = view s ∧ W.pos (W.truncateImpl n s).2 = (view s).length ∧ (view s).length < n)) ∧
    (W.ok s = false → W.ok (W.truncateImpl n s).2 = false ∧ dest (W.truncateImpl n s).2 = dest s) ∧
    Mixed 0 0 (dest s) (view s) (if n ≤ max (view s).length (W.pos s) then resize n (view s) else view s) (dest (W.truncateImpl n s).2)
  readModeImpl : ∀ q s, Inv s → WritePost W view dest Inv [] s (W.readModeImpl q s) ∧
    ((W.readModeImpl q s).1 = true → W.ok s = true ∧ dest (W.readModeImpl q s).2 = view s)
  randomAccess : ∀ s, Inv s → Inv (W.randomAccess s).2 ∧ dest (W.randomAccess s).2 = dest s ∧
    (W.ok (W.randomAccess s).2 = true → view (W.randomAccess s).2 = view s ∧ W.pos (W.randomAccess s).2 = W.pos s) ∧
    ((W.randomAccess s).1 = true → W.ok (W.randomAccess s).2 = W.ok s ∧ (W.randomAccess (W.randomAccess s).2).1 = true) ∧
    (W.ok s = false → W.ok (W.randomAccess s).2 = false)
  setHint : ∀ n s, Inv s → Inv (W.setHint n s) ∧
    (W.ok (W.setHint n s) = true → view (W.setHint n s) = view s ∧ W.pos (W.setHint n s) = W.pos s) ∧
    (W.ok s = false → W.ok (W.setHint n s) = false) ∧ dest (W.setHint n s) = dest s

end

/-! ## Histories -/

/-- Calls of public functions. -/
inductive WOp where
  | push (n rec : Nat)
  | writeChar (b : UInt8)
  | write (bs : Bytes)
  | writeExternal (bs : Bytes)
  | writeChain (fs : List Bytes)
  | fill (n : Nat) (b : UInt8)
  | flush (t : FlushType)
  | seek (q : Nat)
  | size
  | truncate (n : Nat)
  | readMode (q : Nat)
  | supportsRandomAccess
  | setWriteSizeHint (n : Option Nat)

namespace WOp

/-- Calls the function: the result is whether it succeeded. -/
def run {σ : Type} (W : WriterOps σ) (s : σ) : WOp → Bool × σ
  | push n rec => W.push n rec s
  | writeChar b => W.writeChar b s
  | write bs => W.write bs s
  | writeExternal bs => W.writeExternal bs s
  | writeChain fs => W.writeChain fs s
  | fill n b => W.fill n b s
  | flush t => W.flushImpl t s
  | seek q => W.seek q s
  | size => ((W.sizeImpl s).1.isSome, (W.sizeImpl s).2)
  | truncate n => W.truncateImpl n s
  | readMode q => W.readModeImpl q s
  | supportsRandomAccess => W.randomAccess s
  | setWriteSizeHint n => (true, W.setHint n s)

/-- Calls functions, and collects their results. -/
def runAll {σ : Type} (W : WriterOps σ) : List WOp → σ → List Bool × σ
  | [], s => ([], s)
  | op :: ops, s =>
    let r := op.run W s
    let rs := runAll W ops r.2
    (r.1 :: rs.1, rs.2)

/-- `Truncate()` is called only when `SupportsTruncate()`, which is `SupportsRandomAccess()` (`writer.h:348`). -/
def Allowed {σ : Type} (W : WriterOps σ) (s : σ) : WOp → Prop
  | truncate _ => (W.randomAccess s).1 = true
  | _ => True

/-- The same for all calls. -/
def AllAllowed {σ : Type} (W : WriterOps σ) : List WOp → σ → Prop
  | [], _ => True
  | op :: ops, s => op.Allowed W s ∧ AllAllowed W ops (op.run W s).2

/-! The specification: a writer is a sequence of bytes and a position. -/

/-- What the call writes. -/
def bytes : WOp → Bytes
  | writeChar b => [b]
  | write bs => bs
  | writeExternal bs => bs
  | writeChain fs => fs.flatten
  | fill n b => List.replicate n b
  | _ => []

/-- The call writes at the current position, or does not write. -/
def Appends : WOp → Bool
  | seek _ => false
  | truncate _ => false
  | _ => true

/-- The contents and the position after a call with the given result, for a writer which did not fail. -/
def after : WOp → Bool → Bytes × Nat → Bytes × Nat
  | seek q, true, (c, _) => (c, q)
  | seek _, false, (c, _) => (c, c.length)
  | truncate n, true, (c, _) => (resize n c, n)
  | truncate _, false, (c, _) => (c, c.length)
  | op, _, (c, p) => (overlay c p op.bytes, p + op.bytes.length)

/-- Which results are possible for a writer which did not fail: only seeking past the end, truncating past the end, and asking whether random access is
supported may return `false`. -/
def Possible : WOp → Bool → Bytes × Nat → Prop
  | seek q, true, (c, p) => q ≤ max c.length p
  | seek q, false, (c, p) => c.length < q ∧ q ≠ p
  | truncate n, true, (c, p) => n ≤ max c.length p
  | truncate n, false, (c, _) => c.length < n
  | supportsRandomAccess, _, _ => True
  | _, r, _ => r = true

/-- The contents and the position after calls with the given results. -/
def replay : List WOp → List Bool → Bytes × Nat → Bytes × Nat
  | op :: ops, r :: rs, a => replay ops rs (op.after r a)
  | _, _, a => a

/-- The results are possible. -/
def AllPossible : List WOp → List Bool → Bytes × Nat → Prop
  | op :: ops, r :: rs, a => op.Possible r a ∧ AllPossible ops rs (op.after r a)
  | _, _, _ => True

end WOp
end Riegeli.Wtr
