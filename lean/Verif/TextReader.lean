import Verif.BufferedReader
/-!
# `TextReader`

Model of `riegeli/lines/text_reader.{h,cc}` for `ReadNewline::kCrLfOrLf`, over any class of readers `R`: a class derived from
`BufferedReader` which converts line terminators CR LF to LF.

Not modelled: moving, `AnnotateStatus()` and error messages, an owned source (`SetReadAllHint()`, `VerifyEnd()`, and `Close()` of it),
`ReadNewline::kLf` (which is a `PrefixLimitingReader`).
-/
namespace Riegeli.Rdr

/-- CR. -/
def crByte : UInt8 := 13
/-- LF. -/
def lfByte : UInt8 := 10

/-- The source, `initial_original_pos_`, and `pending_cr_` (`text_reader.h:67`, `text_reader.h:92`). -/
structure TR (σ : Type) where
  src : σ
  initial : Nat
  pending : Bool

namespace TR
variable {σ : Type} (R : ReaderOps σ)

/-- One iteration of the loop of `ReadInternal()` after `Pull()` succeeded (`text_reader.cc:125-164`): at most `n` bytes from the source in the
state `s`. -/
def piece (n : Nat) (s : σ) (t : TR σ) : Bytes × TR σ :=
  if t.pending then
    if R.peek 1 s = [lfByte] then ([lfByte], { t with src := R.move 1 s, pending := false })
    else ([crByte], { t with src := s, pending := false })
  else
    let k := min (R.avail s) n
    let pre := (R.peek k s).takeWhile (· != crByte)
    if pre.length = k then (pre, { t with src := R.move k s })
    else if pre.length = R.avail s - 1 then (pre, { t with src := R.move (pre.length + 1) s, pending := true })
    else if (R.peek (pre.length + 2) s)[pre.length + 1]? = some lfByte then
      (pre ++ [lfByte], { t with src := R.move (pre.length + 2) s })
    else (pre ++ [crByte], { t with src := R.move (pre.length + 1) s })

/-- The loop of `ReadInternal()` (`text_reader.cc:114-167`). The first argument bounds the number of iterations; `2 * m + 1` is enough. -/
def readLoop : Nat → Nat → Nat → TR σ → Bool × Bytes × TR σ
  | 0, _, _, t => (false, [], t)
  | fuel + 1, m, n, t =>
    let p := R.pull 1 n t.src
    if p.1 = false then
      if t.pending then (decide (m ≤ 1), [crByte], { t with src := p.2, pending := false })
      else (false, [], { t with src := p.2 })
    else
      let s := piece R n p.2 t
      if m ≤ s.1.length then (true, s.1, s.2)
      else
        let r := readLoop fuel (m - s.1.length) (n - s.1.length) s.2
        (r.1, s.1 ++ r.2.1, r.2.2)

/-- `ReadInternal()` (`text_reader.cc:102-168`). -/
def readInternal (m n : Nat) (p : Phys (TR σ)) : Bool × Bytes × Phys (TR σ) :=
  let r := readLoop R (2 * m + 1) m n p.src
  (r.1, r.2.1, { p with src := r.2.2, limitPos := p.limitPos + r.2.1.length })

/-- `SeekBehindBuffer()` for a position not after the current one, before it calls `BufferedReader::SeekBehindBuffer()`
(`text_reader.cc:170-183`, `text_reader.cc:73-93`). -/
def rewind (q : Nat) (p : Phys (TR σ)) : Option (Phys (TR σ)) :=
  if q ≤ p.limitPos then
    if p.ok = false then some { p with src := { p.src with pending := false } }
    else
      let r := R.seek p.src.initial p.src.src
      some { p with src := { p.src with src := r.2, pending := false }, limitPos := 0, ok := r.1 }
  else none

/-- `TextReader` as a class derived from `BufferedReader`. `tolerates` is `ToleratesReadingAhead()` of the source. -/
def cls (tolerates : σ → Bool) (opts : BufOpts) (room : Nat → Nat → Bool) (push : Nat → Nat) : BSrc (TR σ) where
  readInternal := readInternal R
  rewind := rewind R
  tolerates p := tolerates p.src.src
  randomAccess _ := false
  opts := opts
  room := room
  push := push

/-- `TextReader(src, options)` (`text_reader.cc:35-43`, `text_reader.cc:97-100`, `text_reader.h:233-238`). -/
def init (s : σ) (z : Sizer) : BR (TR σ) :=
  ⟨⟨⟨s, R.cursor s, false⟩, 0, R.ok s || decide (R.avail s ≠ 0), none⟩, [], 0, z, 0⟩

end TR
end Riegeli.Rdr
