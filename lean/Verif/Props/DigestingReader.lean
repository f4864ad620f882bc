import Verif.DigestingReaderProofs
import Verif.FragReader
/-!
# C56: `DigestingReader`

What was digested is compared with the data `D` of the source, from the position where the source was when the `DigestingReader` was created. The source is any
class of readers which meets the contract of `Reader` (`ReaderOps.Lawful`). The digester is any one: `accepts x bs` says whether it succeeds to digest
`bs` after `x`.
-/
namespace Riegeli.Props
open Riegeli Rdr

/-- Histories of a `DigestingReader` of the source `s`: public functions of `Reader`, `Digest()`, `VerifyEnd()` and `Fail()` are called in any order. -/
inductive DigRead {σ : Type} (R : ReaderOps σ) (accepts : Bytes → Bytes → Bool) (s : σ) : DR σ → Prop where
  | init : DigRead R accepts s (DR.init R s true)
  | op {l} (op : ROp) : DigRead R accepts s l → DigRead R accepts s (op.run (DR.ops R accepts) l)
  | digest {l} : DigRead R accepts s l → DigRead R accepts s (l.digest R accepts).2
  | verifyEnd {l} : DigRead R accepts s l → DigRead R accepts s (l.verifyEnd R accepts)
  | fail {l} : DigRead R accepts s l → DigRead R accepts s (l.fail R accepts)

section
variable {σ : Type} {R : ReaderOps σ} {accepts : Bytes → Bytes → Bool} {D : Bytes} {E : Prop} {Inv : σ → Prop} {s : σ} {l : DR σ}
  (L : R.Lawful D E Inv) (hs : Inv s) (hD : D.length < 2 ^ 64 - 1)
include L hs hD

theorem DigRead.wi (h : DigRead R accepts s l) : DR.WI R D Inv (R.cursor s) l := by
  induction h with
  | init => exact DR.init_wi L hs true
  | op op _ ih => exact (DR.meets (accepts := accepts) L hD op ih).1
  | digest _ ih => exact (DR.sync_spec (accepts := accepts) L ih).1
  | verifyEnd _ ih => exact (DR.verifyEnd_spec (accepts := accepts) L ih).1
  | fail _ ih => exact (DR.fail_spec (accepts := accepts) L ih).1

variable (h : DigRead R accepts s l)
include h

/-- **C56.** At any point `Digest()` gives the digest of exactly the data of the source from the initial position to `pos()`, unless the digester failed. -/
theorem C56_digest :
    let q := l.digest R accepts
    R.cursor s ≤ l.cur ∧ l.cur ≤ D.length ∧ q.2.cur = l.cur ∧
    (q.2.digOk = true → q.1 = slice D (R.cursor s) (l.cur - R.cursor s)) := by
  intro q
  have w := h.wi L hs hD
  obtain ⟨a1, a2, a3, a4, a5, a6, a7, a8⟩ := DR.sync_spec (accepts := accepts) L w
  refine ⟨Nat.le_trans w.from' w.lo, Nat.le_trans w.hi (L.window _ w.inv).2.2, a2, fun hd => ?_⟩
  obtain ⟨k, k1, k2, k3⟩ := a1.dig
  have hq : (l.sync R accepts).1 = true := by
    cases hq : (l.sync R accepts).1 with
    | true => rfl
    | false => exact (Bool.false_ne_true ((a7 hq).2.1.symm.trans hd)).elim
  show (l.sync R accepts).2.digested = _
  rw [k2, k3 hd, (a6 hq).1]

/-- **C56.** At any point, also after a failure, what was digested is a prefix of the data of the source from the initial position, not further than `pos()`. -/
theorem C56_never_digests_anything_else : ∃ k, k ≤ l.cur - R.cursor s ∧ l.digested = slice D (R.cursor s) k := by
  have w := h.wi L hs hD
  obtain ⟨k, k1, k2, k3⟩ := w.dig
  have := w.lo
  exact ⟨k, by omega, k2⟩

/-- **C56.** Every function reads the data of the source, as for any `Reader`, unless the digester fails. A failed reader stays failed. -/
theorem C56_reads_the_data (op : ROp) :
    let r := op.run (DR.ops R accepts) l
    (r.digOk = true → op.Meets (DR.ops R accepts) D E l) ∧ (r.digOk = false → r.ok = false) ∧ (l.ok = false → r.ok = false) := by
  obtain ⟨a1, a2, a3⟩ := DR.meets (accepts := accepts) L hD op (h.wi L hs hD)
  exact ⟨a2, a1.bad, a3⟩

/-- **C56.** If `Close()` succeeds then exactly the data from the initial position to the final position were digested, and the source is left at the final
position. -/
theorem C56_close :
    let c := l.close R accepts
    c.ok = true → c.digested = slice D (R.cursor s) (l.cur - R.cursor s) ∧ R.cursor c.src = l.cur ∧ l.ok = true := by
  intro c ho
  obtain ⟨a1, a2, a3, a4⟩ := DR.close_spec (accepts := accepts) L (h.wi L hs hD)
  exact ⟨(a3 ho).2.1, (a3 ho).2.2, (a3 ho).1⟩

/-- **C56.** If `VerifyEndAndClose()` succeeds then the source ended, and all its data from the initial position were digested. -/
theorem C56_verify_end :
    let c := (l.verifyEnd R accepts).close R accepts
    c.ok = true → E ∧ l.cur = D.length ∧ c.digested = D.drop (R.cursor s) := by
  intro c ho
  obtain ⟨a1, a2, a3, a4⟩ := DR.close_spec (accepts := accepts) L ((DigRead.verifyEnd h).wi L hs hD)
  obtain ⟨b1, b2, b3, b4, b5⟩ := DR.verifyEnd_spec (accepts := accepts) L (h.wi L hs hD)
  obtain ⟨c1, c2, c3⟩ := a3 ho
  obtain ⟨d1, d2⟩ := b3 c1
  refine ⟨d1, b2.symm.trans d2, ?_⟩
  show ((l.verifyEnd R accepts).close R accepts).digested = _
  rw [c2, d2, slice, List.take_of_length_le (by rw [List.length_drop]; omega)]

end

section
variable {σ : Type} {R : ReaderOps σ} {accepts : Bytes → Bytes → Bool} {D : Bytes} {E : Prop} {Inv : σ → Prop} {s : σ}
  (L : R.Lawful D E Inv) (hs : Inv s)
include L

/-- **C56.** A `DigestingReader` with a digester which does not fail is itself a reader of the data of the source. -/
theorem C56_is_a_reader (ha : ∀ x b, accepts x b = true) :
    (DR.ops R accepts).Lawful D E (fun l => DR.WI R D Inv (R.cursor s) l ∧ l.digOk = true) := DR.lawful L ha

include hs

/-- **C56.** If `DigestFromReader()` succeeds, then the source ended, and the digest is of exactly its data from the initial position; `length_read` is their length. It
fails only if the source or the digester failed. -/
theorem C56_digest_from_reader (fuel : Nat) (hf : D.length < R.limit s + fuel) :
    (∀ x n, DR.digestFromReader R accepts fuel s = some (x, n) → E ∧ x = D.drop (R.cursor s) ∧ n = D.length - R.cursor s) ∧
    (DR.digestFromReader R accepts fuel s = none →
      (DR.digestRun R accepts fuel s).1.digOk = false ∨ R.ok (DR.digestRun R accepts fuel s).1.src = false) := by
  have w := DR.init_wi L hs true
  have hc : DR.Cause R (DR.init R s true) := fun h => .inr (by
    have h : (R.ok s && true) = false := h
    rw [Bool.and_true] at h; exact h)
  obtain ⟨a1, a2, a3, a4⟩ := DR.drain_spec (accepts := accepts) L fuel w hc hf
  obtain ⟨b1, b2, b3, b4, b5⟩ := DR.verifyEnd_spec (accepts := accepts) L a1
  obtain ⟨c1, c2, c3, c4⟩ := DR.close_spec (accepts := accepts) L b1
  have e : DR.digestRun R accepts fuel s = ((((DR.init R s true).drain R accepts fuel).verifyEnd R accepts).close R accepts,
    ((DR.init R s true).drain R accepts fuel).cur - R.cursor s) := rfl
  have e' : DR.digestFromReader R accepts fuel s = if (DR.digestRun R accepts fuel s).1.ok then
    some ((DR.digestRun R accepts fuel s).1.digested, (DR.digestRun R accepts fuel s).2) else none := rfl
  rw [e', e]
  dsimp only
  generalize (DR.init R s true).drain R accepts fuel = q at *
  constructor
  · intro x n hx
    split at hx
    · rename_i ho
      obtain ⟨d1, d2, d3⟩ := c3 ho
      obtain ⟨f1, f2⟩ := b3 d1
      injection hx with hx
      injection hx with hx1 hx2
      refine ⟨f1, ?_, ?_⟩
      · rw [← hx1, d2, f2, slice, List.take_of_length_le (by rw [List.length_drop]; omega)]
      · rw [← hx2, ← b2, f2]
    · cases hx
  · intro hx
    split at hx
    · cases hx
    · rename_i ho
      have ho : ((q.verifyEnd R accepts).close R accepts).ok = false := (Bool.not_eq_true _).mp ho
      cases hq : q.ok with
      | true => exact c4 (b5 a2 (a4 hq).2) ho
      | false =>
        have e1 : q.verifyEnd R accepts = q := by
          have hf : q.fail R accepts = q := by
            unfold DR.fail
            rw [if_pos hq]
          have hs : DR.pullSlow R accepts 1 0 q = (false, q) := by
            unfold DR.pullSlow
            rw [if_pos hq]
          unfold DR.verifyEnd ReaderOps.pull
          by_cases ha : 1 ≤ (DR.ops R accepts).avail q
          · rw [if_pos ha]
            exact hf
          · rw [if_neg ha]
            have : (DR.ops R accepts).pullSlow 1 0 q = (false, q) := hs
            rw [this]
            rfl
        rw [e1] at ho ⊢
        have e2 : q.close R accepts = q := by
          unfold DR.close
          rw [hq, if_neg (by simp)]
        rw [e2]
        exact a2 hq

end
/-! ## Examples -/

def exDigData : Bytes := (List.range 20).map UInt8.ofNat
/-- A source with buffers of a few bytes. -/
def exDigSrc : ReaderOps Frag := (frag exDigData (fun p => p % 3 + 2) (fun p => p % 5) none).toOps
def exDigStart : Frag := ⟨0, 0, 0, true⟩
theorem exDigSrc_lawful : exDigSrc.Lawful exDigData ((none : Option Nat) = none) (Frag.Inv exDigData) := (frag_lawful _ _ _ _).toOps
def exAny : Bytes → Bytes → Bool := fun _ _ => true
/-- A digester which fails past 9 bytes. -/
def exNine : Bytes → Bytes → Bool := fun x b => x.length + b.length ≤ 9

/-- Reading 7 bytes, then seeking to 11, then a digest: the bytes skipped are digested. -/
example : ∃ l, DigRead exDigSrc exAny exDigStart l ∧ l.cur = 11 ∧ l.ok = true ∧ (l.digest exDigSrc exAny).1 = exDigData.take 11 ∧
    (l.close exDigSrc exAny).ok = true :=
  ⟨_, .op (.seek 11) (.op (.read .chars 7) .init), by decide +kernel⟩

/-- `VerifyEndAndClose()` at the end succeeds, and before the end fails. -/
example : ∃ l, DigRead exDigSrc exAny exDigStart l ∧ l.cur = 20 ∧ ((l.verifyEnd exDigSrc exAny).close exDigSrc exAny).ok = true :=
  ⟨_, .op (.read .blocks 20) .init, by decide +kernel⟩
example : ∃ l, DigRead exDigSrc exAny exDigStart l ∧ l.cur = 19 ∧ ((l.verifyEnd exDigSrc exAny).close exDigSrc exAny).ok = false :=
  ⟨_, .op (.read .blocks 19) .init, by decide +kernel⟩

example : exDigData.length < exDigSrc.limit exDigStart + 30 ∧ DR.digestFromReader exDigSrc exAny 30 exDigStart = some (exDigData, 20) ∧
    DR.digestFromReader exDigSrc exNine 30 exDigStart = none := by decide +kernel

example : Frag.Inv exDigData exDigStart := by refine ⟨?_, ?_, ?_⟩ <;> decide

/-- The digester fails in `Read()` to a `Chain`: `pos()` moves past what was read from the source, but the `Chain` does not get it; also the assertion
`start() == src.cursor()` of `SyncBuffer()` fails, called by `FailFromDigester()`. -/
theorem C56_data_lost_when_digester_fails :
    let r := (DR.ops exDigSrc exNine).read .blocks 15 (DR.init exDigSrc exDigStart true)
    r.1 = false ∧ r.2.1 = [] ∧ r.2.2.cur = 15 ∧ r.2.2.broken = true ∧ r.2.2.digOk = false := by decide +kernel

end Riegeli.Props
