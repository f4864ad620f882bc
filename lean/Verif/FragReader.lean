import Verif.ReaderDefaults
/-!
# Operations of a `Reader`, and a concrete class of readers

`ROp` enumerates the public functions of `Reader`; `ROp.Meets` is what each of them should do for a reader of the data `D`.
`frag` is a concrete class of readers which meets the contract: a source which delivers `D` in fragments of arbitrary sizes, keeps
an arbitrary amount of the data before the position buffered, and possibly fails at some position.
-/
namespace Riegeli.Rdr

/-- Public functions of `Reader`. -/
inductive ROp where
  | pull (n rec : Nat)
  | read (k : Kind) (n : Nat)
  | readView (n : Nat)
  | readByte
  | copy (n : Nat) (d : Dest)
  | copyBack (n : Nat) (d : Dest)
  | readSome (k : Kind) (n : Nat)
  | copySome (n : Nat) (d : Dest)
  | readHint (n rec : Nat)
  | seek (p : Nat)
  | skip (n : Nat)
  | size

namespace ROp
variable {σ : Type} (R : ReaderOps σ)

/-- The state after an operation. -/
def run (op : ROp) (s : σ) : σ :=
  match op with
  | .pull n rec => (R.pull n rec s).2
  | .read k n => (R.read k n s).2.2
  | .readView n => (R.readView n s).2.2
  | .readByte => (R.readByte s).2
  | .copy n d => (R.copy n d s).2.2
  | .copyBack n d => (R.copyBack n d s).2.2
  | .readSome k n => (R.readSome k n s).2.2
  | .copySome n d => (R.copySome n d s).2.2
  | .readHint n rec => R.readHint n rec s
  | .seek p => (R.seek p s).2
  | .skip n => (R.skip n s).2
  | .size => (R.sizeImpl s).2

/-- What an operation should do for a reader of the data `D`; `E` says whether the end of `D` is a clean end rather than a place
where the source fails. -/
def Meets (D : Bytes) (E : Prop) (op : ROp) (s : σ) : Prop :=
  match op with
  | .pull n rec =>
    R.cursor (R.pull n rec s).2 = R.cursor s ∧
    R.peek (R.avail (R.pull n rec s).2) (R.pull n rec s).2 = slice D (R.cursor s) (R.avail (R.pull n rec s).2) ∧
    R.cursor s + R.avail (R.pull n rec s).2 ≤ D.length ∧
    ((R.pull n rec s).1 = true → n ≤ R.avail (R.pull n rec s).2 ∧ R.Keeps s (R.pull n rec s).2) ∧
    ((R.pull n rec s).1 = false → R.avail (R.pull n rec s).2 < n ∧
      (R.ok (R.pull n rec s).2 = false ∨ (E ∧ R.cursor s + R.avail (R.pull n rec s).2 = D.length)))
  | .read k n => R.ReadPost D E n s (R.read k n s)
  | .readView n => R.ReadPost D E n s (R.readView n s)
  | .readByte =>
    (∀ b, (R.readByte s).1 = some b → D[R.cursor s]? = some b ∧ R.cursor (R.readByte s).2 = R.cursor s + 1 ∧
      R.Keeps s (R.readByte s).2) ∧
    ((R.readByte s).1 = none → R.cursor (R.readByte s).2 = R.cursor s ∧
      (R.ok (R.readByte s).2 = false ∨ (E ∧ R.cursor s = D.length)))
  | .copy n d => R.CopyPost D E n d s (R.copy n d s)
  | .copyBack n d => R.CopyBackPost D E n d s (R.copyBack n d s)
  | .readSome k n => R.SomePost D E n s (R.readSome k n s)
  | .copySome n d => R.CopySomePost D E n d s (R.copySome n d s)
  | .readHint n rec => R.cursor (R.readHint n rec s) = R.cursor s
  | .seek p => R.SeekPost D E p s (R.seek p s)
  | .skip n => R.SeekPost D E (R.cursor s + n) s (R.skip n s)
  | .size =>
    R.cursor (R.sizeImpl s).2 = R.cursor s ∧
    (∀ n, (R.sizeImpl s).1 = some n → (E → n = D.length) ∧ D.length ≤ n ∧ R.Keeps s (R.sizeImpl s).2) ∧
    ((R.sizeImpl s).1 = none → R.ok (R.sizeImpl s).2 = false)

variable {R} {D : Bytes} {E : Prop} {Inv : σ → Prop}

/-- Every operation of a lawful reader does what it should, and a failed reader stays failed. -/
theorem meets (L : R.Lawful D E Inv) (hD : D.length < 2 ^ 64 - 1) (op : ROp) {s : σ} (h : Inv s) :
    Inv (op.run R s) ∧ op.Meets R D E s ∧ (R.ok s = false → R.ok (op.run R s) = false) := by
  cases op with
  | pull n rec =>
    obtain ⟨h1, h2, h3, h4, h5⟩ := L.pull n rec h
    have hw := L.window _ h1
    have hp := L.peek h1 (Nat.le_refl _)
    rw [h2] at hp
    refine ⟨h1, ⟨h2, hp, ?_, h3, fun hb => ⟨(h4 hb).1, (h4 hb).2.imp id fun h => ⟨h.1, ?_⟩⟩⟩, h5⟩
    · unfold ReaderOps.avail; omega
    · have := h.2
      unfold ReaderOps.avail; omega
  | read k n => exact L.read k n h
  | readView n => exact L.readView n h
  | readByte =>
    obtain ⟨h1, h2, h3, h4⟩ := L.readByte h
    exact ⟨h1, ⟨h2, h3⟩, h4⟩
  | copy n d => exact L.copy n d h
  | copyBack n d => exact L.copyBack n d h
  | readSome k n => exact L.readSome k n h
  | copySome n d => exact L.copySome n d h
  | readHint n rec => exact L.readHint n rec h
  | seek p => exact L.seek p h
  | skip n => exact L.skip n h hD
  | size =>
    obtain ⟨h1, h2, h3, h4, h5⟩ := L.sizeImpl s h
    exact ⟨h1, ⟨h2, h3, h4⟩, h5⟩

end ROp

/-- The state of the concrete source: the buffer is `[start, limit)`. -/
structure Frag where
  start : Nat
  cursor : Nat
  limit : Nat
  ok : Bool

/-- The position where the source ends or fails. -/
def stopAt (D : Bytes) : Option Nat → Nat
  | none => D.length
  | some b => min b D.length

/-- The concrete source of the data `D`: `PullSlow(n)` at position `p` buffers `back p` bytes before the position and `ahead p`
bytes more than required, if they exist; the source fails at the position `bad`, if any. -/
def frag (D : Bytes) (ahead back : Nat → Nat) (bad : Option Nat) : Core Frag where
  start := Frag.start
  cursor := Frag.cursor
  limit := Frag.limit
  buf s := slice D s.start (s.limit - s.start)
  ok := Frag.ok
  setCursor c s := { s with cursor := c }
  pullSlow n _ s :=
    let stop := stopAt D bad
    if s.ok = false then (false, s)
    else if s.cursor + n ≤ stop then
      (true, ⟨s.cursor - back s.cursor, s.cursor, min stop (s.cursor + n + ahead s.cursor), true⟩)
    else (false, ⟨s.start, s.cursor, max s.limit stop, bad.isNone⟩)
  fail s := { s with ok := false }
  block n := n / 2

/-- The buffer is inside the data. -/
def Frag.Inv (D : Bytes) (s : Frag) : Prop := s.start ≤ s.cursor ∧ s.cursor ≤ s.limit ∧ s.limit ≤ D.length

theorem frag_lawful (D : Bytes) (ahead back : Nat → Nat) (bad : Option Nat) :
    (frag D ahead back bad).Lawful D (bad = none) (Frag.Inv D) where
  window _ h := h
  data _ _ := rfl
  setCursor s c h h1 h2 := ⟨⟨h1, h2, h.2.2⟩, rfl, rfl, rfl, rfl⟩
  pullSlow s n rec h hn := by
    have hn : s.limit - s.cursor < n := hn
    obtain ⟨h1, h2, h3⟩ := h
    unfold Core.avail frag
    dsimp only
    have hs : stopAt D bad ≤ D.length := by unfold stopAt; split <;> omega
    have hs' : bad = none → stopAt D bad = D.length := by rintro rfl; rfl
    generalize stopAt D bad = stop at *
    split
    · rename_i ho
      exact ⟨⟨h1, h2, h3⟩, rfl, by simp, fun _ => ⟨hn, .inl ho⟩, fun _ => ho⟩
    · rename_i ho
      split
      · rename_i hle
        refine ⟨⟨?_, ?_, ?_⟩, rfl, fun _ => ⟨?_, ?_⟩, by simp, fun h => absurd h ho⟩
        · show s.cursor - back s.cursor ≤ s.cursor; omega
        · show s.cursor ≤ min stop (s.cursor + n + ahead s.cursor); omega
        · show min stop (s.cursor + n + ahead s.cursor) ≤ D.length; omega
        · show n ≤ min stop (s.cursor + n + ahead s.cursor) - s.cursor; omega
        · left; show true = s.ok; cases hk : s.ok
          · exact absurd hk ho
          · rfl
      · rename_i hle
        refine ⟨⟨h1, ?_, ?_⟩, rfl, by simp, fun _ => ⟨?_, ?_⟩, fun h => absurd h ho⟩
        · show s.cursor ≤ max s.limit stop; omega
        · show max s.limit stop ≤ D.length; omega
        · show max s.limit stop - s.cursor < n; omega
        · show bad.isNone = false ∨ (bad = none ∧ max s.limit stop = D.length)
          cases bad with
          | none => have := hs' rfl; exact .inr ⟨rfl, by omega⟩
          | some b => exact .inl rfl
  fail _ h := ⟨h, rfl, rfl⟩

end Riegeli.Rdr
