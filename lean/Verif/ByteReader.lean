import Verif.Basic
/-!
# A byte `Reader` with an arbitrary fragmentation of its source into buffers

Model of the part of the interface of `Reader` (`riegeli/bytes/reader.h`) which the parsers of lines and CSV use: `Pull()`,
`cursor()`, `available()`, `move_cursor()`, `Fail()`. How much data each `PullSlow()` makes available is decided by an oracle
`frag`; quantifying over it covers all classes of readers, all buffer sizes and all ways of splitting the source into buffers.
The source may also fail (instead of ending) after any number of bytes.
-/
namespace Riegeli

/-- A `Reader`: `rest` are the bytes from the current position to the end of the source, or to the place where the source
fails (`fails`); the first `avail` of them are in the buffer. -/
structure Rd where
  rest : Bytes
  avail : Nat
  ok : Bool
  fails : Bool
  frag : Nat → Nat

namespace Rd

/-- The data between `cursor()` and `limit()`. -/
def buffer (s : Rd) : Bytes := s.rest.take s.avail

/-- `Reader::Pull(min_length)` (`reader.h:101-116`). If there is not enough data in the buffer, the new buffer has at least
`min_length` bytes if the source has that many, otherwise it has all of them, and the failure of the source, if any, shows. -/
def pull (n : Nat) (s : Rd) : Bool × Rd :=
  if n ≤ s.avail then (true, s)
  else if s.ok = false then (false, s)
  else if n ≤ s.rest.length then
    (true, { s with avail := max n (min (s.frag 0) s.rest.length), frag := fun i => s.frag (i + 1) })
  else (false, { s with avail := s.rest.length, ok := !s.fails })

/-- `Reader::move_cursor(n)`, for `n <= available()`. -/
def advance (n : Nat) (s : Rd) : Rd := { s with rest := s.rest.drop n, avail := s.avail - n }

/-- `Reader::Fail()`; it does not affect the buffer. -/
def fail (s : Rd) : Rd := { s with ok := false }

/-- A reader over `data`, before anything has been read. -/
def ofBytes (data : Bytes) (fails : Bool) (frag : Nat → Nat) : Rd := ⟨data, 0, true, fails, frag⟩

/-- The invariant of the buffer. -/
def Wf (s : Rd) : Prop := s.avail ≤ s.rest.length

theorem wf_ofBytes {data : Bytes} {fails : Bool} {frag : Nat → Nat} : (ofBytes data fails frag).Wf := Nat.zero_le _

theorem wf_advance {s : Rd} {n : Nat} (h : s.Wf) : (s.advance n).Wf := by
  simp only [Wf, advance, List.length_drop] at *; omega

@[simp] theorem advance_rest (s : Rd) (n : Nat) : (s.advance n).rest = s.rest.drop n := rfl
@[simp] theorem advance_ok (s : Rd) (n : Nat) : (s.advance n).ok = s.ok := rfl
@[simp] theorem advance_fails (s : Rd) (n : Nat) : (s.advance n).fails = s.fails := rfl
@[simp] theorem advance_avail (s : Rd) (n : Nat) : (s.advance n).avail = s.avail - n := rfl
@[simp] theorem fail_rest (s : Rd) : s.fail.rest = s.rest := rfl
@[simp] theorem fail_ok (s : Rd) : s.fail.ok = false := rfl
@[simp] theorem fail_fails (s : Rd) : s.fail.fails = s.fails := rfl

/-- What `Pull()` does: it succeeds iff the source has enough data, and does not move. -/
theorem pull_cases {s : Rd} {n : Nat} (h : s.Wf) (hok : s.ok = true) :
    (n ≤ s.rest.length ∧ ∃ s', s.pull n = (true, s') ∧ s'.rest = s.rest ∧ s'.fails = s.fails ∧ s'.ok = true ∧ s'.Wf ∧
      n ≤ s'.avail ∧ s.avail ≤ max s.avail s'.avail) ∨
    (s.rest.length < n ∧ ∃ s', s.pull n = (false, s') ∧ s'.rest = s.rest ∧ s'.fails = s.fails ∧ s'.ok = !s.fails ∧
      s'.Wf ∧ s'.avail = s.rest.length) := by
  unfold Wf at *
  unfold pull
  split
  · exact .inl ⟨by omega, s, rfl, rfl, rfl, hok, by omega, by omega, by omega⟩
  · rw [if_neg (by rw [hok]; simp)]
    split
    · exact .inl ⟨by omega, _, rfl, rfl, rfl, hok, by show max n _ ≤ s.rest.length; omega, by show n ≤ max n _; omega,
        by omega⟩
    · exact .inr ⟨by omega, _, rfl, rfl, rfl, rfl, Nat.le_refl _, rfl⟩

theorem buffer_length {s : Rd} (h : s.Wf) : s.buffer.length = s.avail := by
  simp only [buffer, List.length_take]; unfold Wf at h; omega

theorem rest_eq_buffer (s : Rd) : s.rest = s.buffer ++ s.rest.drop s.avail := (List.take_append_drop _ _).symm

end Rd

/-- `memchr`: the index of the first occurrence of a byte. -/
def memchr (c : UInt8) : Bytes → Option Nat
  | [] => none
  | b :: l => if b = c then some 0 else (memchr c l).map (· + 1)

theorem memchr_none {c : UInt8} {l : Bytes} (h : memchr c l = none) : c ∉ l := by
  induction l with
  | nil => simp
  | cons b l ih =>
    simp only [memchr] at h
    split at h
    · cases h
    · rename_i hb
      simp only [Option.map_eq_none_iff] at h
      simp only [List.mem_cons, not_or]
      exact ⟨fun e => hb e.symm, ih h⟩

theorem memchr_some {c : UInt8} {l : Bytes} {i : Nat} (h : memchr c l = some i) :
    ∃ p q, l = p ++ c :: q ∧ c ∉ p ∧ p.length = i := by
  induction l generalizing i with
  | nil => cases h
  | cons b l ih =>
    simp only [memchr] at h
    split at h
    · rename_i hb
      cases h; exact ⟨[], l, by rw [hb]; rfl, by simp, rfl⟩
    · rename_i hb
      simp only [Option.map_eq_some_iff] at h
      obtain ⟨j, hj, rfl⟩ := h
      obtain ⟨p, q, e, h1, h2⟩ := ih hj
      refine ⟨b :: p, q, by rw [e]; rfl, ?_, by simp [h2]⟩
      simp only [List.mem_cons, not_or]
      exact ⟨fun e => hb e.symm, h1⟩

end Riegeli
