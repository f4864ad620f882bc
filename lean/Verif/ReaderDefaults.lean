import Verif.ReaderProofs
/-!
# The default implementations of the virtual functions of `Reader`

A class of readers must implement `PullSlow()`. The other virtual functions have default implementations in `reader.cc` in terms of
it. If `PullSlow()` meets its contract then all functions do.
-/
namespace Riegeli.Rdr

/-- `BackwardWriter::Push()`. -/
def Dest.push (n : Nat) (d : Dest) : Bool × Dest :=
  if d.ok = false then (false, d)
  else if d.written.length + n ≤ d.cap then (true, d)
  else (false, { d with ok := false })

/-- What a class of readers must provide: the buffer, `PullSlow()`, `Fail()`. `block n` is the size of the buffer for reading the
next part of `n` bytes to a `Chain` or `absl::Cord`. -/
structure Core (σ : Type) where
  start : σ → Nat
  cursor : σ → Nat
  limit : σ → Nat
  buf : σ → Bytes
  ok : σ → Bool
  setCursor : Nat → σ → σ
  pullSlow : Nat → Nat → σ → Bool × σ
  fail : σ → σ
  block : Nat → Nat
  /-- Whether `PullSlow()` can succeed and leave the reader failed, because reading more than was requested failed. -/
  ahead : Prop := False

namespace Core
variable {σ : Type} (C : Core σ)

/-- `Reader::available()`. -/
def avail (s : σ) : Nat := C.limit s - C.cursor s

/-- The first `n` bytes at the cursor. -/
def peek (n : Nat) (s : σ) : Bytes := slice (C.buf s) (C.cursor s - C.start s) n

/-- `Reader::move_cursor(n)`. -/
def move (n : Nat) (s : σ) : σ := C.setCursor (C.cursor s + n) s

/-- `Reader::ReadSlow(length, char*)` (`reader.cc:344-359`). The first argument bounds the number of iterations; `n + 1` is
enough. -/
def readChars : Nat → Nat → σ → Bool × Bytes × σ
  | 0, _, s => (false, [], s)
  | fuel + 1, n, s =>
    let a := C.avail s
    let bs := C.peek a s
    let r := C.pullSlow 1 (n - a) (C.move a s)
    if r.1 = false then (false, bs, r.2)
    else if C.avail r.2 < n - a then
      let q := readChars fuel (n - a) r.2
      (q.1, bs ++ q.2.1, q.2.2)
    else (true, bs ++ C.peek (n - a) r.2, C.move (n - a) r.2)

/-- `Reader::Read(length, char*)` (`reader.h:754-763`). -/
def readFast (n : Nat) (s : σ) : Bool × Bytes × σ :=
  if n ≤ C.avail s then (true, C.peek n s, C.move n s) else C.readChars (n + 1) n s

/-- The size of the buffer for the next part: from 1 to the remaining length. -/
def blockSize (n : Nat) : Nat := max 1 (min (C.block n) n)

/-- `Reader::ReadSlow(length, Chain&)`, `Reader::ReadSlow(length, Cord&)` (`reader.cc:422-439`, `reader.cc:464-494`). The first
argument bounds the number of iterations; `n` is enough. -/
def readBlocks : Nat → Nat → σ → Bool × Bytes × σ
  | 0, _, s => (false, [], s)
  | fuel + 1, n, s =>
    let b := C.blockSize n
    let r := C.readFast b s
    if r.1 = false then (false, r.2.1, r.2.2)
    else if 0 < n - b then
      let q := readBlocks fuel (n - b) r.2.2
      (q.1, r.2.1 ++ q.2.1, q.2.2)
    else (true, r.2.1, r.2.2)

/-- `Reader::ReadSlow()`. -/
def readSlow (k : Kind) (n : Nat) (s : σ) : Bool × Bytes × σ :=
  match k with
  | .chars => C.readChars (n + 1) n s
  | .blocks => C.readBlocks n n s

/-- `Reader::CopySlow(length, Writer&)` (`reader.cc:519-533`). The first argument bounds the number of iterations; `n + 2` is
enough. -/
def copyLoop : Nat → Nat → Dest → σ → Bool × Dest × σ
  | 0, _, d, s => (false, d, s)
  | fuel + 1, n, d, s =>
    if C.avail s < n then
      let a := C.avail s
      let w := d.write (C.peek a s)
      if w.1 = false then (false, w.2, C.move a s)
      else
        let r := C.pullSlow 1 (n - a) (C.move a s)
        if r.1 = false then (false, w.2, r.2) else copyLoop fuel (n - a) w.2 r.2
    else
      let w := d.write (C.peek n s)
      (w.1, w.2, C.move n s)

/-- `Reader::CopySlow(length, BackwardWriter&)` (`reader.cc:555-576`). -/
def copyBackSlow (n : Nat) (d : Dest) (s : σ) : Bool × Dest × σ :=
  if n ≤ C.avail s then
    let w := d.prepend (C.peek n s)
    (w.1, w.2, C.move n s)
  else if n ≤ kMaxBytesToCopy then
    let p := d.push n
    if p.1 = false then (false, p.2, s)
    else
      let r := C.readChars (n + 1) n s
      if r.1 = false then (false, p.2, r.2.2)
      else (true, { p.2 with written := r.2.1 ++ p.2.written }, r.2.2)
  else
    let r := C.readBlocks n n s
    if r.1 = false then (false, d, r.2.2)
    else
      let w := d.prepend r.2.1
      (w.1, w.2, r.2.2)

/-- `Reader::ReadSomeSlow(max_length, char*)` (`reader.cc:578-590`). -/
def readSomeSlow (n : Nat) (s : σ) : Bool × Bytes × σ :=
  let r := C.pullSlow 1 n s
  if r.1 = false then (false, [], r.2)
  else
    let k := min n (C.avail r.2)
    (true, C.peek k r.2, C.move k r.2)

/-- `Reader::CopySomeSlow(max_length, Writer&)` (`reader.cc:758-773`). -/
def copySomeSlow (n : Nat) (d : Dest) (s : σ) : Bool × Dest × σ :=
  let r := C.pullSlow 1 n s
  if r.1 = false then (false, d, r.2)
  else
    let k := min n (C.avail r.2)
    if k ≤ C.avail r.2 ∧ k ≤ kMaxBytesToCopy then
      let w := d.write (C.peek k r.2)
      (w.1, w.2, C.move k r.2)
    else C.copyLoop (k + 2) k d r.2

/-- The loop of `Reader::SeekSlow()` (`reader.cc:819-822`). The first argument bounds the number of iterations. -/
def seekLoop : Nat → Nat → σ → Bool × σ
  | 0, _, s => (false, s)
  | fuel + 1, p, s =>
    let r := C.pullSlow 1 0 (C.move (C.avail s) s)
    if r.1 = false then (false, r.2)
    else if C.limit r.2 < p then seekLoop fuel p r.2
    else (true, C.setCursor p r.2)

/-- `Reader::SeekSlow()` (`reader.cc:810-828`). -/
def seekSlow (p : Nat) (s : σ) : Bool × σ :=
  if p ≤ C.limit s then (false, C.fail s) else C.seekLoop (p + 1 - C.limit s) p s

/-- `Reader` with the default implementations of virtual functions other than `PullSlow()`. -/
def toOps : ReaderOps σ where
  start := C.start
  cursor := C.cursor
  limit := C.limit
  buf := C.buf
  ok := C.ok
  setCursor := C.setCursor
  pullSlow := C.pullSlow
  readSlow := C.readSlow
  copySlow n d s := C.copyLoop (n + 2) n d s
  copyBackSlow := C.copyBackSlow
  readSomeSlow := C.readSomeSlow
  copySomeSlow := C.copySomeSlow
  readHintSlow _ _ s := s
  seekSlow := C.seekSlow
  sizeImpl s := (none, C.fail s)
  ahead := C.ahead

/-- The contract of `PullSlow()`. -/
structure Lawful (D : Bytes) (E : Prop) (Inv : σ → Prop) : Prop where
  window : ∀ s, Inv s → C.start s ≤ C.cursor s ∧ C.cursor s ≤ C.limit s ∧ C.limit s ≤ D.length
  data : ∀ s, Inv s → C.buf s = slice D (C.start s) (C.limit s - C.start s)
  setCursor : ∀ s c, Inv s → C.start s ≤ c → c ≤ C.limit s → Inv (C.setCursor c s) ∧ C.cursor (C.setCursor c s) = c ∧
    C.start (C.setCursor c s) = C.start s ∧ C.limit (C.setCursor c s) = C.limit s ∧ C.ok (C.setCursor c s) = C.ok s
  pullSlow : ∀ s n rec, Inv s → C.avail s < n → Inv (C.pullSlow n rec s).2 ∧
    C.cursor (C.pullSlow n rec s).2 = C.cursor s ∧
    ((C.pullSlow n rec s).1 = true → n ≤ C.avail (C.pullSlow n rec s).2 ∧ C.toOps.Keeps s (C.pullSlow n rec s).2) ∧
    ((C.pullSlow n rec s).1 = false → C.avail (C.pullSlow n rec s).2 < n ∧
      (C.ok (C.pullSlow n rec s).2 = false ∨ (E ∧ C.limit (C.pullSlow n rec s).2 = D.length))) ∧
    (C.ok s = false → C.ok (C.pullSlow n rec s).2 = false)
  fail : ∀ s, Inv s → Inv (C.fail s) ∧ C.cursor (C.fail s) = C.cursor s ∧ C.ok (C.fail s) = false

section
variable {C} {D : Bytes} {E : Prop} {Inv : σ → Prop}

theorem Lawful.move (L : C.Lawful D E Inv) {s : σ} {n : Nat} (h : Inv s) (hn : n ≤ C.avail s) :
    Inv (C.move n s) ∧ C.cursor (C.move n s) = C.cursor s + n ∧ C.start (C.move n s) = C.start s ∧
    C.limit (C.move n s) = C.limit s ∧ C.ok (C.move n s) = C.ok s := by
  have hw := L.window s h
  unfold avail at hn
  exact L.setCursor s _ h (by omega) (by omega)

theorem Lawful.peek (L : C.Lawful D E Inv) {s : σ} {n : Nat} (h : Inv s) (hn : n ≤ C.avail s) :
    C.peek n s = slice D (C.cursor s) n := by
  have hw := L.window s h
  unfold avail at hn
  rw [Core.peek, L.data s h, slice_slice (by omega)]
  congr 1; omega

/-- `move_cursor(available())` and `PullSlow(1)`. -/
theorem Lawful.next (L : C.Lawful D E Inv) {s : σ} (h : Inv s) (rec : Nat) :
    Inv (C.pullSlow 1 rec (C.move (C.avail s) s)).2 ∧
    C.cursor (C.pullSlow 1 rec (C.move (C.avail s) s)).2 = C.limit s ∧
    ((C.pullSlow 1 rec (C.move (C.avail s) s)).1 = true → 1 ≤ C.avail (C.pullSlow 1 rec (C.move (C.avail s) s)).2 ∧
      C.toOps.Keeps s (C.pullSlow 1 rec (C.move (C.avail s) s)).2) ∧
    ((C.pullSlow 1 rec (C.move (C.avail s) s)).1 = false →
      (C.ok (C.pullSlow 1 rec (C.move (C.avail s) s)).2 = false ∨ (E ∧ C.limit s = D.length))) ∧
    (C.ok s = false → C.ok (C.pullSlow 1 rec (C.move (C.avail s) s)).2 = false) := by
  have hw := L.window s h
  obtain ⟨m1, m2, m3, m4, m5⟩ := L.move h (Nat.le_refl _)
  have ha : C.avail (C.move (C.avail s) s) = 0 := by
    unfold avail at *; rw [m2, m4]; omega
  have hc : C.cursor (C.move (C.avail s) s) = C.limit s := by rw [m2]; unfold avail; omega
  obtain ⟨p1, p2, p3, p4, p5⟩ := L.pullSlow _ 1 rec m1 (by omega)
  rw [hc] at p2
  rw [m5] at p5
  refine ⟨p1, p2, fun hb => ⟨(p3 hb).1, ReaderOps.Keeps.trans (.inl m5) (p3 hb).2⟩, fun hb => ?_, p5⟩
  rcases (p4 hb).2 with h1 | ⟨h1, h2⟩
  · exact .inl h1
  · refine .inr ⟨h1, ?_⟩
    have hq := (p4 hb).1
    have hw' := L.window _ p1
    generalize C.pullSlow 1 rec (C.move (C.avail s) s) = r at *
    have hq : C.limit r.2 - C.cursor r.2 < 1 := hq
    omega

theorem Lawful.readChars (L : C.Lawful D E Inv) (fuel n : Nat) {s : σ} (h : Inv s) (hn : C.avail s < n)
    (hf : n ≤ fuel ∧ (C.avail s = 0 → n + 1 ≤ fuel)) :
    Inv (C.readChars fuel n s).2.2 ∧ C.toOps.ReadPost D E n s (C.readChars fuel n s) ∧
    (C.ok s = false → C.ok (C.readChars fuel n s).2.2 = false) := by
  induction fuel generalizing n s with
  | zero => omega
  | succ fuel ih =>
    have hw := L.window s h
    obtain ⟨p1, p2, p3, p4, p5⟩ := L.next h (n - C.avail s)
    have hpk := L.peek h (Nat.le_refl _)
    have hav : C.avail s = C.limit s - C.cursor s := rfl
    unfold Core.readChars
    dsimp only
    generalize hr : C.pullSlow 1 (n - C.avail s) (C.move (C.avail s) s) = r at *
    have hw' := L.window _ p1
    cases hb : r.1 with
    | false =>
      rw [if_pos rfl]
      refine ⟨p1, ⟨?_, ?_, by simp, fun _ => ⟨?_, ?_⟩⟩, p5⟩
      · show C.cursor s ≤ C.cursor r.2; omega
      · show C.peek _ s = slice D (C.cursor s) (C.cursor r.2 - C.cursor s)
        rw [hpk, p2]; rfl
      · show C.cursor r.2 < C.cursor s + n; omega
      · show C.ok r.2 = false ∨ (E ∧ C.cursor r.2 = _)
        rw [p2]; exact p4 hb
    | true =>
      rw [if_neg (by simp)]
      obtain ⟨q1, q2⟩ := p3 hb
      split
      · rename_i hlt
        obtain ⟨i1, ⟨i2, i3, i4, i5⟩, i6⟩ := ih (n - C.avail s) p1 hlt (by
          by_cases h0 : C.avail s = 0
          · have := hf.2 h0; omega
          · omega)
        have i2 : C.cursor r.2 ≤ C.cursor (C.readChars fuel (n - C.avail s) r.2).2.2 := i2
        refine ⟨i1, ⟨?_, ?_, ?_, ?_⟩, fun ho => i6 (p5 ho)⟩
        · show C.cursor s ≤ C.cursor (C.readChars fuel (n - C.avail s) r.2).2.2; omega
        · show C.peek _ s ++ (C.readChars fuel (n - C.avail s) r.2).2.1 = slice D (C.cursor s)
            (C.cursor (C.readChars fuel (n - C.avail s) r.2).2.2 - C.cursor s)
          rw [hpk, i3]
          show _ ++ slice D (C.cursor r.2) (C.cursor _ - C.cursor r.2) = _
          rw [show C.cursor r.2 = C.cursor s + C.avail s by omega, slice_append]
          congr 1; omega
        · intro hb'
          have := i4 hb'
          refine ⟨?_, q2.trans this.2⟩
          have h1 : C.cursor (C.readChars fuel (n - C.avail s) r.2).2.2 = C.cursor r.2 + (n - C.avail s) := this.1
          show C.cursor (C.readChars fuel (n - C.avail s) r.2).2.2 = _
          show _ = C.cursor s + n
          omega
        · intro hb'
          have := i5 hb'
          refine ⟨?_, this.2⟩
          have h1 : C.cursor (C.readChars fuel (n - C.avail s) r.2).2.2 < C.cursor r.2 + (n - C.avail s) := this.1
          show C.cursor (C.readChars fuel (n - C.avail s) r.2).2.2 < C.cursor s + n
          omega
      · rename_i hlt
        have hle : n - C.avail s ≤ C.avail r.2 := by omega
        obtain ⟨m1, m2, m3, m4, m5⟩ := L.move p1 hle
        refine ⟨m1, ⟨?_, ?_, fun _ => ⟨?_, q2.trans (.inl m5)⟩, by simp⟩, fun ho => m5.trans (p5 ho)⟩
        · show C.cursor s ≤ C.cursor (C.move _ r.2); omega
        · show C.peek _ s ++ C.peek _ r.2 = slice D (C.cursor s) (C.cursor (C.move _ r.2) - C.cursor s)
          rw [hpk, L.peek p1 hle, show C.cursor r.2 = C.cursor s + C.avail s by omega, slice_append]
          congr 1; omega
        · show C.cursor (C.move _ r.2) = C.cursor s + n; omega

theorem Lawful.readFast (L : C.Lawful D E Inv) (n : Nat) {s : σ} (h : Inv s) :
    Inv (C.readFast n s).2.2 ∧ C.toOps.ReadPost D E n s (C.readFast n s) ∧
    (C.ok s = false → C.ok (C.readFast n s).2.2 = false) := by
  unfold Core.readFast
  split
  · rename_i hn
    obtain ⟨m1, m2, m3, m4, m5⟩ := L.move h hn
    refine ⟨m1, ⟨?_, ?_, fun _ => ⟨m2, .inl m5⟩, by simp⟩, fun ho => m5.trans ho⟩
    · show C.cursor s ≤ C.cursor (C.move n s); omega
    · show C.peek n s = slice D (C.cursor s) (C.cursor (C.move n s) - C.cursor s)
      rw [L.peek h hn, m2]; congr 1; omega
  · exact L.readChars _ n h (by omega) ⟨by omega, fun _ => Nat.le_refl _⟩

theorem Lawful.readBlocks (L : C.Lawful D E Inv) (fuel n : Nat) {s : σ} (h : Inv s) (hn : 0 < n) (hf : n ≤ fuel) :
    Inv (C.readBlocks fuel n s).2.2 ∧ C.toOps.ReadPost D E n s (C.readBlocks fuel n s) ∧
    (C.ok s = false → C.ok (C.readBlocks fuel n s).2.2 = false) := by
  induction fuel generalizing n s with
  | zero => omega
  | succ fuel ih =>
    have hb1 : 1 ≤ C.blockSize n ∧ C.blockSize n ≤ n := by unfold blockSize; omega
    unfold Core.readBlocks
    dsimp only
    generalize C.blockSize n = b at *
    obtain ⟨p1, ⟨p2, p3, p4, p5⟩, p6⟩ := L.readFast b h
    generalize C.readFast b s = r at *
    have p2 : C.cursor s ≤ C.cursor r.2.2 := p2
    have p3 : r.2.1 = slice D (C.cursor s) (C.cursor r.2.2 - C.cursor s) := p3
    cases hb : r.1 with
    | false =>
      rw [if_pos rfl]
      obtain ⟨q1, q2⟩ := p5 hb
      have q1 : C.cursor r.2.2 < C.cursor s + b := q1
      refine ⟨p1, ⟨p2, p3, by simp, fun _ => ⟨?_, q2⟩⟩, p6⟩
      show C.cursor r.2.2 < C.cursor s + n; omega
    | true =>
      rw [if_neg (by simp)]
      obtain ⟨q1, q2⟩ := p4 hb
      have q1 : C.cursor r.2.2 = C.cursor s + b := q1
      split
      · rename_i hlt
        obtain ⟨i1, ⟨i2, i3, i4, i5⟩, i6⟩ := ih (n - b) p1 hlt (by omega)
        generalize C.readBlocks fuel (n - b) r.2.2 = w at *
        have i2 : C.cursor r.2.2 ≤ C.cursor w.2.2 := i2
        have i3 : w.2.1 = slice D (C.cursor r.2.2) (C.cursor w.2.2 - C.cursor r.2.2) := i3
        refine ⟨i1, ⟨?_, ?_, ?_, ?_⟩, fun ho => i6 (p6 ho)⟩
        · show C.cursor s ≤ C.cursor w.2.2; omega
        · show r.2.1 ++ w.2.1 = slice D (C.cursor s) (C.cursor w.2.2 - C.cursor s)
          rw [p3, i3, q1, Nat.add_sub_cancel_left, slice_append]
          congr 1; omega
        · intro hb'
          have := i4 hb'
          refine ⟨?_, q2.trans this.2⟩
          have h1 : C.cursor w.2.2 = C.cursor r.2.2 + (n - b) := this.1
          show C.cursor w.2.2 = C.cursor s + n
          omega
        · intro hb'
          have := i5 hb'
          refine ⟨?_, this.2⟩
          have h1 : C.cursor w.2.2 < C.cursor r.2.2 + (n - b) := this.1
          show C.cursor w.2.2 < C.cursor s + n
          omega
      · rename_i hlt
        refine ⟨p1, ⟨p2, p3, fun _ => ⟨?_, q2⟩, by simp⟩, p6⟩
        show C.cursor r.2.2 = C.cursor s + n; omega

/-- Reading available data succeeds. -/
theorem Lawful.readBlocks_avail (L : C.Lawful D E Inv) (fuel n : Nat) {s : σ} (h : Inv s) (hn : 0 < n) (hf : n ≤ fuel) (ha : n ≤ C.avail s) :
    (C.readBlocks fuel n s).1 = true := by
  induction fuel generalizing n s with
  | zero => omega
  | succ fuel ih =>
    have hb1 : 1 ≤ C.blockSize n ∧ C.blockSize n ≤ n := by unfold blockSize; omega
    unfold Core.readBlocks
    dsimp only
    generalize C.blockSize n = b at *
    have e : C.readFast b s = (true, C.peek b s, C.move b s) := by
      unfold Core.readFast
      rw [if_pos (by omega)]
    obtain ⟨m1, m2, m3, m4, m5⟩ := L.move h (show b ≤ C.avail s by omega)
    rw [e, if_neg (by simp)]
    split
    · rename_i hlt
      refine ih (n - b) m1 hlt (by omega) ?_
      unfold Core.avail at ha ⊢
      show n - b ≤ C.limit (C.move b s) - C.cursor (C.move b s)
      omega
    · rfl

/-- Writing a part of the buffer. -/
theorem Lawful.copyFast (L : C.Lawful D E Inv) {s : σ} {n : Nat} (d : Dest) (h : Inv s) (hn : n ≤ C.avail s) :
    Inv (C.move n s) ∧ C.toOps.CopyPost D E n d s ((d.write (C.peek n s)).1, (d.write (C.peek n s)).2, C.move n s) ∧
    (C.ok s = false → C.ok (C.move n s) = false) := by
  obtain ⟨m1, m2, m3, m4, m5⟩ := L.move h hn
  have hw := L.window s h
  have hl : (C.peek n s).length = n := by
    rw [L.peek h hn]; exact slice_length (by unfold avail at hn; omega)
  obtain ⟨⟨k, hk, hwr, hko⟩, h1, h2, h3⟩ := d.write_spec (C.peek n s)
  refine ⟨m1, ⟨?_, ?_, ⟨k, ?_, ?_, ?_⟩, ?_, ?_, h3⟩, fun ho => m5.trans ho⟩
  · show C.cursor s ≤ C.cursor (C.move n s); omega
  · show C.cursor (C.move n s) ≤ C.cursor s + n; omega
  · show k ≤ C.cursor (C.move n s) - C.cursor s; omega
  · show (d.write (C.peek n s)).2.written = d.written ++ slice D (C.cursor s) k
    rw [hwr, L.peek h hn]
    congr 1
    simp only [slice, List.take_take]
    rw [Nat.min_eq_left (by omega)]
  · intro ho
    show k = C.cursor (C.move n s) - C.cursor s
    have := hko ho; omega
  · intro hb
    exact ⟨m2, .inl m5, h1 hb⟩
  · intro hb ho
    have : (d.write (C.peek n s)).2.ok = false := h2 hb
    rw [show (d.write (C.peek n s)).2.ok = true from ho] at this
    cases this

theorem Lawful.copyLoop (L : C.Lawful D E Inv) (fuel n : Nat) (d : Dest) {s : σ} (h : Inv s)
    (hf : n + 1 ≤ fuel ∧ (C.avail s = 0 → n + 2 ≤ fuel)) :
    Inv (C.copyLoop fuel n d s).2.2 ∧ C.toOps.CopyPost D E n d s (C.copyLoop fuel n d s) ∧
    (C.ok s = false → C.ok (C.copyLoop fuel n d s).2.2 = false) := by
  induction fuel generalizing n d s with
  | zero => omega
  | succ fuel ih =>
    have hw := L.window s h
    unfold Core.copyLoop
    split
    · rename_i hlt
      obtain ⟨f1, ⟨f2, f2', ⟨k, f3, f3', f3''⟩, f4, f5, f7⟩, f6⟩ := L.copyFast d h (Nat.le_refl (C.avail s))
      obtain ⟨p1, p2, p3, p4, p5⟩ := L.next h (n - C.avail s)
      obtain ⟨m1, m2, m3, m4, m5⟩ := L.move h (Nat.le_refl (C.avail s))
      have hav : C.avail s = C.limit s - C.cursor s := rfl
      have ws := d.write_spec (C.peek (C.avail s) s)
      dsimp only
      generalize d.write (C.peek (C.avail s) s) = w at *
      have f3 : k ≤ C.cursor (C.move (C.avail s) s) - C.cursor s := f3
      have f3' : w.2.written = d.written ++ slice D (C.cursor s) k := f3'
      have f3'' : w.2.ok = true → k = C.cursor (C.move (C.avail s) s) - C.cursor s := f3''
      cases hb : w.1 with
      | false =>
        rw [if_pos rfl]
        have hwo := ws.2.2.1 hb
        refine ⟨f1, ⟨?_, ?_, ⟨k, f3, f3', f3''⟩, by simp, ?_, f7⟩, f6⟩
        · show C.cursor s ≤ C.cursor (C.move (C.avail s) s); omega
        · show C.cursor (C.move (C.avail s) s) ≤ C.cursor s + n; omega
        · intro _ ho
          have ho : w.2.ok = true := ho
          rw [hwo] at ho; cases ho
      | true =>
        rw [if_neg (by simp)]
        have hwo := ws.2.1 hb
        have hk := f3'' hwo
        generalize C.pullSlow 1 (n - C.avail s) (C.move (C.avail s) s) = r at *
        cases hb2 : r.1 with
        | false =>
          rw [if_pos rfl]
          refine ⟨p1, ⟨?_, ?_, ⟨k, ?_, f3', fun _ => ?_⟩, by simp, fun _ _ => ⟨?_, ?_⟩, f7⟩, p5⟩
          · show C.cursor s ≤ C.cursor r.2; omega
          · show C.cursor r.2 ≤ C.cursor s + n; omega
          · show k ≤ C.cursor r.2 - C.cursor s; omega
          · show k = C.cursor r.2 - C.cursor s; omega
          · show C.cursor r.2 < C.cursor s + n; omega
          · show C.ok r.2 = false ∨ (E ∧ C.cursor r.2 = _)
            rw [p2]; exact p4 hb2
        | true =>
          rw [if_neg (by simp)]
          obtain ⟨q1, q2⟩ := p3 hb2
          obtain ⟨i1, ⟨i2, i2', ⟨j, i3, i3', i3''⟩, i4, i5, i7⟩, i6⟩ := ih (n - C.avail s) w.2 p1 (by
            by_cases h0 : C.avail s = 0
            · have := hf.2 h0; omega
            · omega)
          generalize C.copyLoop fuel (n - C.avail s) w.2 r.2 = z at *
          have i2 : C.cursor r.2 ≤ C.cursor z.2.2 := i2
          have i2' : C.cursor z.2.2 ≤ C.cursor r.2 + (n - C.avail s) := i2'
          have i3 : j ≤ C.cursor z.2.2 - C.cursor r.2 := i3
          have i3' : z.2.1.written = w.2.written ++ slice D (C.cursor r.2) j := i3'
          have i3'' : z.2.1.ok = true → j = C.cursor z.2.2 - C.cursor r.2 := i3''
          refine ⟨i1, ⟨?_, ?_, ⟨k + j, ?_, ?_, fun ho => ?_⟩, fun hb' => ?_, fun hb' ho => ?_, fun ho => f7 (i7 ho)⟩,
            fun ho => i6 (p5 ho)⟩
          · show C.cursor s ≤ C.cursor z.2.2; omega
          · show C.cursor z.2.2 ≤ C.cursor s + n; omega
          · show k + j ≤ C.cursor z.2.2 - C.cursor s; omega
          · show z.2.1.written = d.written ++ slice D (C.cursor s) (k + j)
            rw [i3', f3', List.append_assoc, ← slice_append]
            congr 3; omega
          · show k + j = C.cursor z.2.2 - C.cursor s
            have := i3'' ho; omega
          · have := i4 hb'
            refine ⟨?_, q2.trans this.2.1, this.2.2⟩
            have h1 : C.cursor z.2.2 = C.cursor r.2 + (n - C.avail s) := this.1
            show C.cursor z.2.2 = C.cursor s + n
            omega
          · have := i5 hb' ho
            refine ⟨?_, this.2⟩
            have h1 : C.cursor z.2.2 < C.cursor r.2 + (n - C.avail s) := this.1
            show C.cursor z.2.2 < C.cursor s + n
            omega
    · rename_i hlt
      exact L.copyFast d h (by omega)

theorem Lawful.seekLoop (L : C.Lawful D E Inv) (fuel p : Nat) {s : σ} (h : Inv s) (hp : C.limit s < p)
    (hf : p + 1 - C.limit s ≤ fuel) :
    Inv (C.seekLoop fuel p s).2 ∧ C.toOps.SeekPost D E p s (C.seekLoop fuel p s) ∧
    (C.ok s = false → C.ok (C.seekLoop fuel p s).2 = false) := by
  induction fuel generalizing s with
  | zero => omega
  | succ fuel ih =>
    have hw := L.window s h
    obtain ⟨p1, p2, p3, p4, p5⟩ := L.next h 0
    unfold Core.seekLoop
    dsimp only
    generalize C.pullSlow 1 0 (C.move (C.avail s) s) = r at *
    have hw' := L.window _ p1
    cases hb : r.1 with
    | false =>
      rw [if_pos rfl]
      refine ⟨p1, ⟨?_, fun _ => ?_, by simp, fun _ => ?_⟩, p5⟩
      · refine .inl ?_; show C.cursor r.2 ≤ max p (C.cursor s); omega
      · show C.cursor s ≤ C.cursor r.2; omega
      · show C.ok r.2 = false ∨ (E ∧ C.cursor r.2 = _ ∧ _)
        rcases p4 hb with h1 | ⟨h1, h2⟩
        · exact .inl h1
        · exact .inr ⟨h1, by omega, by omega⟩
    | true =>
      rw [if_neg (by simp)]
      obtain ⟨q1, q2⟩ := p3 hb
      unfold avail at q1
      split
      · rename_i hlt
        obtain ⟨i1, ⟨i2, i3, i4, i5⟩, i6⟩ := ih p1 hlt (by omega)
        generalize C.seekLoop fuel p r.2 = z at *
        have i2 : C.cursor z.2 ≤ max p (C.cursor r.2) := by
          rcases i2 with h | ⟨h, _⟩
          · exact h
          · have h : p < C.cursor r.2 := h
            omega
        have i3 : C.cursor r.2 ≤ p → C.cursor r.2 ≤ C.cursor z.2 := i3
        refine ⟨i1, ⟨?_, fun _ => ?_, fun hb' => ⟨(i4 hb').1, q2.trans (i4 hb').2⟩, i5⟩, fun ho => i6 (p5 ho)⟩
        · refine .inl ?_; show C.cursor z.2 ≤ max p (C.cursor s); omega
        · show C.cursor s ≤ C.cursor z.2
          have := i3 (by omega); omega
      · rename_i hlt
        obtain ⟨m1, m2, m3, m4, m5⟩ := L.setCursor r.2 p p1 (by omega) (by omega)
        refine ⟨m1, ⟨?_, fun _ => ?_, fun _ => ⟨m2, q2.trans (.inl m5)⟩, by simp⟩, fun ho => m5.trans (p5 ho)⟩
        · refine .inl ?_; show C.cursor (C.setCursor p r.2) ≤ max p (C.cursor s); omega
        · show C.cursor s ≤ C.cursor (C.setCursor p r.2); omega

/-- If `PullSlow()` meets its contract, then so do the default implementations of the other virtual functions. -/
theorem Lawful.toOps (L : C.Lawful D E Inv) : C.toOps.Lawful D E Inv where
  window := L.window
  data := L.data
  setCursor := L.setCursor
  pullSlow := L.pullSlow
  readSlow s k n h hn hp := by
    have hav : C.toOps.avail s = C.avail s := rfl
    cases k with
    | chars =>
      refine L.readChars (n + 1) n h ?_ ⟨by omega, fun _ => Nat.le_refl _⟩
      by_cases hlt : C.avail s < n
      · exact hlt
      · cases (hp (by omega)).2
    | blocks => exact L.readBlocks n n h hn (Nat.le_refl _)
  readAvail s n h hn ha hb := by
    have : (C.readBlocks n n s).1 = false := hb
    rw [L.readBlocks_avail n n h (by omega) (Nat.le_refl _) ha] at this
    cases this
  copySlow s n d h hn hp := L.copyLoop (n + 2) n d h ⟨by omega, fun _ => Nat.le_refl _⟩
  copyBackSlow s n d h hn hp := by
    show Inv (C.copyBackSlow n d s).2.2 ∧ C.toOps.CopyBackPost D E n d s (C.copyBackSlow n d s) ∧ _
    show _ ∧ _ ∧ (C.ok s = false → C.ok (C.copyBackSlow n d s).2.2 = false)
    unfold Core.copyBackSlow
    split
    · rename_i hle
      obtain ⟨m1, m2, m3, m4, m5⟩ := L.move h hle
      obtain ⟨h1, h2, h3⟩ := d.prepend_spec (C.peek n s)
      refine ⟨m1, ⟨?_, ?_, fun hb => ⟨m2, .inl m5, (h1 hb).1, ?_⟩, fun hb ho => ?_, h3⟩, fun ho => m5.trans ho⟩
      · show C.cursor s ≤ C.cursor (C.move n s); omega
      · show C.cursor (C.move n s) ≤ C.cursor s + n; omega
      · show _ = slice D (C.cursor s) n ++ _
        rw [← L.peek h hle]; exact (h1 hb).2
      · have h4 : (d.prepend (C.peek n s)).2.ok = false := h2 hb
        have h5 : (d.prepend (C.peek n s)).2.ok = true := ho
        rw [h4] at h5; cases h5
    · rename_i hle
      split
      · dsimp only
        have hpush : ((d.push n).1 = true → (d.push n).2 = d ∧ d.ok = true) ∧
            ((d.push n).1 = false → (d.push n).2.ok = false) := by
          unfold Dest.push
          split
          · rename_i ho; exact ⟨by simp, fun _ => ho⟩
          · rename_i ho
            split
            · exact ⟨fun _ => ⟨rfl, by simpa using ho⟩, by simp⟩
            · exact ⟨by simp, fun _ => rfl⟩
        generalize d.push n = p at *
        cases hpb : p.1 with
        | false =>
          rw [if_pos rfl]
          have hpo := hpush.2 hpb
          refine ⟨h, ⟨Nat.le_refl _, Nat.le_add_right _ _, by simp, fun _ ho => ?_, fun ho => ?_⟩, id⟩ <;>
          · have ho : p.2.ok = true := ho
            rw [hpo] at ho; cases ho
        | true =>
          rw [if_neg (by simp)]
          obtain ⟨e1, e2⟩ := hpush.1 hpb
          obtain ⟨i1, ⟨i2, i3, i4, i5⟩, i6⟩ := L.readChars (n + 1) n h (by omega) ⟨by omega, fun _ => Nat.le_refl _⟩
          generalize C.readChars (n + 1) n s = r at *
          have i2 : C.cursor s ≤ C.cursor r.2.2 := i2
          have i3 : r.2.1 = slice D (C.cursor s) (C.cursor r.2.2 - C.cursor s) := i3
          cases hb : r.1 with
          | false =>
            rw [if_pos rfl]
            obtain ⟨j1, j2⟩ := i5 hb
            have j1 : C.cursor r.2.2 < C.cursor s + n := j1
            refine ⟨i1, ⟨i2, ?_, by simp, fun _ _ => ⟨by rw [e1], j1, j2⟩, fun _ => e2⟩, i6⟩
            show C.cursor r.2.2 ≤ C.cursor s + n; omega
          | true =>
            rw [if_neg (by simp)]
            obtain ⟨j1, j2⟩ := i4 hb
            have j1 : C.cursor r.2.2 = C.cursor s + n := j1
            refine ⟨i1, ⟨i2, Nat.le_of_eq j1, fun _ => ⟨j1, j2, ?_, ?_⟩, by simp, fun _ => e2⟩, i6⟩
            · show p.2.ok = true; rw [e1]; exact e2
            · show r.2.1 ++ p.2.written = slice D (C.cursor s) n ++ d.written
              rw [e1, i3, j1, Nat.add_sub_cancel_left]
      · obtain ⟨i1, ⟨i2, i3, i4, i5⟩, i6⟩ := L.readBlocks n n h hn (Nat.le_refl _)
        dsimp only
        generalize C.readBlocks n n s = r at *
        have i2 : C.cursor s ≤ C.cursor r.2.2 := i2
        have i3 : r.2.1 = slice D (C.cursor s) (C.cursor r.2.2 - C.cursor s) := i3
        cases hb : r.1 with
        | false =>
          rw [if_pos rfl]
          obtain ⟨j1, j2⟩ := i5 hb
          have j1 : C.cursor r.2.2 < C.cursor s + n := j1
          refine ⟨i1, ⟨i2, ?_, by simp, fun _ _ => ⟨rfl, j1, j2⟩, id⟩, i6⟩
          show C.cursor r.2.2 ≤ C.cursor s + n; omega
        | true =>
          rw [if_neg (by simp)]
          obtain ⟨j1, j2⟩ := i4 hb
          have j1 : C.cursor r.2.2 = C.cursor s + n := j1
          obtain ⟨h1, h2, h3⟩ := d.prepend_spec r.2.1
          refine ⟨i1, ⟨i2, Nat.le_of_eq j1, fun hb' => ⟨j1, j2, (h1 hb').1, ?_⟩, fun hb' ho => ?_, h3⟩, i6⟩
          · show _ = slice D (C.cursor s) n ++ _
            rw [show n = C.cursor r.2.2 - C.cursor s by omega, ← i3]
            exact (h1 hb').2
          · have h4 : (d.prepend r.2.1).2.ok = false := h2 hb'
            have h5 : (d.prepend r.2.1).2.ok = true := ho
            rw [h4] at h5; cases h5
  readSomeSlow s n h hn h0 := by
    obtain ⟨p1, p2, p3, p4, p5⟩ := L.pullSlow s 1 n h (by show C.toOps.avail s < 1; omega)
    show Inv (C.readSomeSlow n s).2.2 ∧ C.toOps.SomePost D E n s (C.readSomeSlow n s) ∧
      (C.ok s = false → C.ok (C.readSomeSlow n s).2.2 = false)
    unfold Core.readSomeSlow
    dsimp only
    generalize C.pullSlow 1 n s = r at *
    have hw := L.window _ p1
    cases hb : r.1 with
    | false =>
      rw [if_pos rfl]
      refine ⟨p1, ⟨?_, ?_, ?_, by simp, fun _ => ?_⟩, p5⟩
      · show C.cursor s ≤ C.cursor r.2; omega
      · show C.cursor r.2 ≤ C.cursor s + n; omega
      · show [] = slice D (C.cursor s) (C.cursor r.2 - C.cursor s)
        rw [p2, Nat.sub_self, slice_zero]
      · refine ⟨p2, ?_⟩
        show C.ok r.2 = false ∨ (E ∧ C.cursor s = _)
        obtain ⟨q1, q2⟩ := p4 hb
        unfold avail at q1
        rcases q2 with q2 | ⟨q2, q3⟩
        · exact .inl q2
        · exact .inr ⟨q2, by omega⟩
    | true =>
      rw [if_neg (by simp)]
      obtain ⟨q1, q2⟩ := p3 hb
      obtain ⟨m1, m2, m3, m4, m5⟩ := L.move p1 (show min n (C.avail r.2) ≤ C.avail r.2 from Nat.min_le_right _ _)
      refine ⟨m1, ⟨?_, ?_, ?_, fun _ => ⟨fun _ => ?_, q2.trans (.inl m5)⟩, by simp⟩, fun ho => m5.trans (p5 ho)⟩
      · show C.cursor s ≤ C.cursor (C.move _ r.2); omega
      · show C.cursor (C.move _ r.2) ≤ C.cursor s + n; omega
      · show C.peek _ r.2 = slice D (C.cursor s) (C.cursor (C.move _ r.2) - C.cursor s)
        rw [L.peek p1 (Nat.min_le_right _ _), m2, p2, Nat.add_sub_cancel_left]
      · show C.cursor s < C.cursor (C.move _ r.2); omega
  copySomeSlow s n d h hn h0 := by
    obtain ⟨p1, p2, p3, p4, p5⟩ := L.pullSlow s 1 n h (by show C.toOps.avail s < 1; omega)
    show Inv (C.copySomeSlow n d s).2.2 ∧ C.toOps.CopySomePost D E n d s (C.copySomeSlow n d s) ∧
      (C.ok s = false → C.ok (C.copySomeSlow n d s).2.2 = false)
    unfold Core.copySomeSlow
    dsimp only
    generalize C.pullSlow 1 n s = r at *
    have hw := L.window _ p1
    cases hb : r.1 with
    | false =>
      rw [if_pos rfl]
      refine ⟨p1, ⟨?_, ?_, ⟨0, Nat.zero_le _, by simp, fun _ => ?_⟩, by simp, fun _ _ => ?_, id⟩, p5⟩
      · show C.cursor s ≤ C.cursor r.2; omega
      · show C.cursor r.2 ≤ C.cursor s + n; omega
      · show 0 = C.cursor r.2 - C.cursor s; omega
      · show C.ok r.2 = false ∨ (E ∧ C.cursor s = _)
        obtain ⟨q1, q2⟩ := p4 hb
        unfold avail at q1
        rcases q2 with q2 | ⟨q2, q3⟩
        · exact .inl q2
        · exact .inr ⟨q2, by omega⟩
    | true =>
      rw [if_neg (by simp)]
      obtain ⟨q1, q2⟩ := p3 hb
      have key : ∀ z : Bool × Dest × σ, C.toOps.CopyPost D E (min n (C.avail r.2)) d r.2 z →
          C.toOps.CopySomePost D E n d s z := by
        intro z ⟨i2, i2', ⟨j, i3, i3', i3''⟩, i4, i5, i7⟩
        have i2 : C.cursor r.2 ≤ C.cursor z.2.2 := i2
        have i2' : C.cursor z.2.2 ≤ C.cursor r.2 + min n (C.avail r.2) := i2'
        have i3 : j ≤ C.cursor z.2.2 - C.cursor r.2 := i3
        have i3' : z.2.1.written = d.written ++ slice D (C.cursor r.2) j := i3'
        have i3'' : z.2.1.ok = true → j = C.cursor z.2.2 - C.cursor r.2 := i3''
        rw [p2] at i3' i3''
        refine ⟨?_, ?_, ⟨j, ?_, i3', i3''⟩, fun hb' => ?_, fun hb' ho => ?_, i7⟩
        · show C.cursor s ≤ C.cursor z.2.2; omega
        · show C.cursor z.2.2 ≤ C.cursor s + n; omega
        · show j ≤ C.cursor z.2.2 - C.cursor s; omega
        · have := i4 hb'
          have h1 : C.cursor z.2.2 = C.cursor r.2 + min n (C.avail r.2) := this.1
          refine ⟨fun _ => ?_, q2.trans this.2.1, this.2.2⟩
          show C.cursor s < C.cursor z.2.2; omega
        · obtain ⟨j1, j2⟩ := i5 hb' ho
          have j1 : C.cursor z.2.2 < C.cursor r.2 + min n (C.avail r.2) := j1
          rcases j2 with j2 | ⟨j2, j3⟩
          · exact .inl j2
          · have j3 : C.cursor z.2.2 = D.length := j3
            unfold avail at j1; omega
      split
      · obtain ⟨f1, f2, f3⟩ := L.copyFast d p1 (show min n (C.avail r.2) ≤ C.avail r.2 from Nat.min_le_right _ _)
        exact ⟨f1, key _ f2, fun ho => f3 (p5 ho)⟩
      · obtain ⟨f1, f2, f3⟩ := L.copyLoop (min n (C.avail r.2) + 2) (min n (C.avail r.2)) d p1
          ⟨by omega, fun _ => Nat.le_refl _⟩
        exact ⟨f1, key _ f2, fun ho => f3 (p5 ho)⟩
  readHintSlow s n rec h _ := ⟨h, rfl, id⟩
  seekSlow s p h hp := by
    show Inv (C.seekSlow p s).2 ∧ C.toOps.SeekPost D E p s (C.seekSlow p s) ∧
      (C.ok s = false → C.ok (C.seekSlow p s).2 = false)
    have hw := L.window s h
    unfold Core.seekSlow
    split
    · obtain ⟨f1, f2, f3⟩ := L.fail s h
      refine ⟨f1, ⟨?_, fun _ => ?_, by simp, fun _ => .inl f3⟩, fun _ => f3⟩
      · refine .inl ?_; show C.cursor (C.fail s) ≤ max p (C.cursor s); omega
      · show C.cursor s ≤ C.cursor (C.fail s); omega
    · rename_i hlt
      exact L.seekLoop _ p h (by omega) (Nat.le_refl _)
  sizeImpl s h := by
    obtain ⟨f1, f2, f3⟩ := L.fail s h
    exact ⟨f1, f2, (fun n hn => by cases hn), fun _ => f3, fun _ => f3⟩

end
end Core
end Riegeli.Rdr
