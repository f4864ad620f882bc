import Verif.BufferedWriter
import Verif.TextReader
/-!
# `TextWriter`

Model of `riegeli/lines/text_writer.{h,cc}` for `WriteNewline::kCrLf`, over any class of writers `W`: a class derived from `BufferedWriter` which
converts line terminators LF to CR LF.

Not modelled: moving, `AnnotateStatus()` and error messages, closing an owned destination, `WriteNewline::kLf` (which is a
`PrefixLimitingWriter`).
-/
namespace Riegeli.Wtr
open Rdr (crByte lfByte)

/-- The destination. `log` is not used by the program: these are the data which `WriteInternal()` was called with. -/
structure TW (σ : Type) where
  dst : σ
  log : Bytes

namespace TW
variable {σ : Type} (W : WriterOps σ)

/-- `WriteLine()` with `WriteNewline::kCrLf` (`riegeli/lines/line_writing.h:97-116`). -/
def writeLine (bs : Bytes) (d : σ) : Bool × σ :=
  let r := W.write bs d
  if r.1 = false then (false, r.2) else W.write [crByte, lfByte] r.2

/-- The loop of `WriteInternal()` (`text_writer.cc:63-79`): `d` is the destination, `p` is `start_pos()`. The first argument bounds the number of
iterations; the length of `bs` + 1 is enough. -/
def writeLoop : Nat → Bytes → σ → Nat → Bool × σ × Nat
  | 0, _, d, p => (false, d, p)
  | fuel + 1, bs, d, p =>
    let line := bs.takeWhile (· != lfByte)
    if line.length = bs.length then
      let r := W.write bs d
      if r.1 = false then (false, r.2, p) else (true, r.2, p + bs.length)
    else
      let r := writeLine W line d
      if r.1 = false then (false, r.2, p) else writeLoop fuel (bs.drop (line.length + 1)) r.2 (p + (line.length + 1))

/-- `WriteInternal()` (`text_writer.cc:55-80`). -/
def writeInternal (bs : Bytes) (p : WPhys (TW σ)) : Bool × WPhys (TW σ) :=
  let r := writeLoop W (bs.length + 1) bs p.dst.dst p.startPos
  (r.1, ⟨⟨r.2.1, p.dst.log ++ bs⟩, r.2.2, p.ok && r.1⟩)

/-- `FlushImpl()` (`text_writer.h:238-249`), where `BufferedWriter::FlushImpl()` calls `FlushBehindBuffer()`. Simplified: flushing the
destination takes place before the rest of `BufferedWriter::FlushImpl()`, which only adjusts the size of the next buffer. -/
def flushBehind (owns : Bool) (bs : Bytes) (t : FlushType) (p : WPhys (TW σ)) : Bool × WPhys (TW σ) :=
  let r := BDst.defaultFlush (writeInternal W) bs p
  if r.1 = false then (false, r.2)
  else
    match t, owns with
    | .fromObject, false => (true, r.2)
    | _, _ =>
      let f := W.flushImpl t r.2.dst.dst
      (f.1, { r.2 with dst := ⟨f.2, r.2.dst.log⟩, ok := r.2.ok && f.1 })

/-- `TextWriter` as a class derived from `BufferedWriter`; other functions are the default ones (`buffered_writer.cc:51-56`,
`buffered_writer.cc:105-136`), which are not supported. `owns` is `dest_.IsOwning()`. -/
def cls (owns : Bool) (opts : Rdr.BufOpts) (junk : Nat → Nat → UInt8) : BDst (TW σ) where
  writeInternal := writeInternal W
  flushBehind := flushBehind W owns
  doneBehind bs p := (BDst.defaultFlush (writeInternal W) bs p).2
  seekBehind _ p := (false, { p with ok := false })
  sizeBehind p := (none, { p with ok := false })
  truncateBehind _ p := (false, { p with ok := false })
  readModeBehind _ p := (false, { p with ok := false })
  randomAccess p := (false, p)
  opts := opts
  junk := junk

/-- `TextWriter(dest, options)` (`text_writer.h:198-211`): the state with an empty buffer. -/
def init (d : σ) : WPhys (TW σ) := ⟨⟨d, []⟩, 0, W.ok d⟩

end TW
end Riegeli.Wtr
