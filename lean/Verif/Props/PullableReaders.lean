import Verif.ChainReaderProofs
import Verif.SteadyReader
/-!
# C60: `PullableReader`, `ChainReader`, `CordReader`

A `ChainReader` of any list of blocks, and a `CordReader` of an `absl::Cord` divided to chunks in any way, are compared with the bytes which are there. `Exact` says
what each function returns in terms of these bytes and of the position only.
-/
namespace Riegeli.Props
open Riegeli Rdr

/-- What the functions of a `Reader` of the data `D` at the position `pos()` return if nothing fails. -/
def Exact {σ : Type} (R : ReaderOps σ) (D : Bytes) (op : ROp) (s : σ) : Prop :=
  let p := R.cursor s
  match op with
  | .pull n rec =>
    let r := R.pull n rec s
    r.1 = decide (p + n ≤ D.length) ∧ R.cursor r.2 = p ∧ R.peek (R.avail r.2) r.2 = slice D p (R.avail r.2) ∧ min n (D.length - p) ≤ R.avail r.2
  | .read k n =>
    let r := R.read k n s
    r.1 = decide (p + n ≤ D.length) ∧ r.2.1 = slice D p n ∧ R.cursor r.2.2 = min (p + n) D.length
  | .readView n =>
    let r := R.readView n s
    r.1 = decide (p + n ≤ D.length) ∧ r.2.1 = slice D p n ∧ R.cursor r.2.2 = min (p + n) D.length
  | .readByte =>
    let r := R.readByte s
    r.1 = D[p]? ∧ R.cursor r.2 = min (p + 1) D.length
  | .copy n d =>
    let r := R.copy n d s
    r.2.1.ok = true → r.1 = decide (p + n ≤ D.length) ∧ r.2.1.written = d.written ++ slice D p n ∧ R.cursor r.2.2 = min (p + n) D.length
  | .copyBack n d =>
    let r := R.copyBack n d s
    r.2.1.ok = true → r.1 = decide (p + n ≤ D.length) ∧ r.2.1.written = (if p + n ≤ D.length then slice D p n else []) ++ d.written ∧
      R.cursor r.2.2 = min (p + n) D.length
  | .readSome k n =>
    let r := R.readSome k n s
    0 < n → r.1 = decide (p < D.length) ∧ r.2.1 = slice D p (R.cursor r.2.2 - p) ∧ (p < D.length → p < R.cursor r.2.2) ∧ R.cursor r.2.2 ≤ p + n
  | .copySome n d =>
    let r := R.copySome n d s
    0 < n → r.2.1.ok = true → r.1 = decide (p < D.length) ∧ r.2.1.written = d.written ++ slice D p (R.cursor r.2.2 - p) ∧
      (p < D.length → p < R.cursor r.2.2) ∧ R.cursor r.2.2 ≤ p + n
  | .readHint n rec => R.cursor (R.readHint n rec s) = p
  | .seek q =>
    let r := R.seek q s
    r.1 = decide (q ≤ D.length) ∧ R.cursor r.2 = min q D.length
  | .skip n =>
    let r := R.skip n s
    r.1 = decide (p + n ≤ D.length) ∧ R.cursor r.2 = min (p + n) D.length
  | .size => (R.sizeImpl s).1 = some D.length ∧ R.cursor (R.sizeImpl s).2 = p

theorem slice_min {D : Bytes} {p n k : Nat} (hp : p ≤ D.length) (h : p + k = min (p + n) D.length) : slice D p k = slice D p n := by
  by_cases h1 : p + n ≤ D.length
  · rw [show k = n by omega]
  · unfold slice
    rw [List.take_of_length_le (by rw [List.length_drop]; omega), List.take_of_length_le (by rw [List.length_drop]; omega)]

/-- A reader which did not fail and whose data end cleanly returns exactly these results. -/
theorem exact_of {σ : Type} {R : ReaderOps σ} {D : Bytes} {Inv : σ → Prop} (L : R.Lawful D True Inv) (hD : D.length < 2 ^ 64 - 1) (op : ROp) {s : σ} (h : Inv s)
    (ho : R.ok (op.run R s) = true) : Exact R D op s := by
  obtain ⟨m1, m2, _⟩ := ROp.meets L hD op h
  have hw := L.window _ h
  have hw' := L.window _ m1
  have hno : ∀ {P : Prop}, R.ok (op.run R s) = false → P := fun h => (Bool.false_ne_true (h.symm.trans ho)).elim
  have post : ∀ (n : Nat) (r : Bool × Bytes × σ), r.2.2 = op.run R s → R.ReadPost D True n s r →
      r.1 = decide (R.cursor s + n ≤ D.length) ∧ r.2.1 = slice D (R.cursor s) n ∧ R.cursor r.2.2 = min (R.cursor s + n) D.length := by
    rintro n r hr ⟨r1, r2, r3, r4⟩
    rw [← hr] at hno hw'
    have hc : R.cursor r.2.2 = min (R.cursor s + n) D.length ∧ r.1 = decide (R.cursor s + n ≤ D.length) := by
      cases hb : r.1 with
      | true =>
        have := (r3 hb).1
        exact ⟨by omega, (decide_eq_true (by omega)).symm⟩
      | false =>
        obtain ⟨a1, a2⟩ := r4 hb
        rcases a2 with a2 | ⟨_, a2⟩
        · exact hno a2
        · exact ⟨by omega, (decide_eq_false (by omega)).symm⟩
    refine ⟨hc.2, ?_, hc.1⟩
    rw [r2]
    exact slice_min (by omega) (by omega)
  have seekPost : ∀ (q : Nat) (r : Bool × σ), r.2 = op.run R s → R.SeekPost D True q s r → r.1 = decide (q ≤ D.length) ∧ R.cursor r.2 = min q D.length := by
    rintro q r hr ⟨r1, r2, r3, r4⟩
    rw [← hr] at hno hw'
    cases hb : r.1 with
    | true =>
      have := (r3 hb).1
      exact ⟨(decide_eq_true (by omega)).symm, by omega⟩
    | false =>
      rcases r4 hb with a2 | ⟨_, a2, a3⟩
      · exact hno a2
      · exact ⟨(decide_eq_false (by omega)).symm, by omega⟩
  cases op with
  | pull n rec =>
    obtain ⟨a1, a2, a3, a4, a5⟩ := m2
    show (R.pull n rec s).1 = _ ∧ _
    cases hb : (R.pull n rec s).1 with
    | true =>
      have := (a4 hb).1
      exact ⟨(decide_eq_true (by omega)).symm, a1, a2, by show min _ _ ≤ R.avail (R.pull n rec s).2; omega⟩
    | false =>
      obtain ⟨b1, b2⟩ := a5 hb
      rcases b2 with b2 | ⟨_, b2⟩
      · exact hno b2
      · exact ⟨(decide_eq_false (by omega)).symm, a1, a2, by show min _ _ ≤ R.avail (R.pull n rec s).2; omega⟩
  | read k n => exact post n _ rfl m2
  | readView n => exact post n _ rfl m2
  | readByte =>
    obtain ⟨a1, a2⟩ := m2
    show (R.readByte s).1 = _ ∧ R.cursor (R.readByte s).2 = _
    have hw' : R.cursor (R.readByte s).2 ≤ D.length := by
      have h1 := hw'.2.1
      have h2 := hw'.2.2
      exact Nat.le_trans h1 h2
    cases hb : (R.readByte s).1 with
    | some b =>
      obtain ⟨b1, b2, b3⟩ := a1 b hb
      exact ⟨b1.symm, by omega⟩
    | none =>
      obtain ⟨b1, b2⟩ := a2 hb
      rcases b2 with b2 | ⟨_, b2⟩
      · exact hno b2
      · exact ⟨by rw [b2]; simp, by omega⟩
  | copy n d =>
    obtain ⟨a1, a2, ⟨k, a3, a4, a5⟩, a6, a7, a8⟩ := m2
    unfold Exact
    dsimp only [ROp.run] at *
    generalize R.copy n d s = r at *
    intro hk
    have hk' := a5 hk
    have hw' : R.cursor r.2.2 ≤ D.length := Nat.le_trans hw'.2.1 hw'.2.2
    have hc : R.cursor r.2.2 = min (R.cursor s + n) D.length ∧ r.1 = decide (R.cursor s + n ≤ D.length) := by
      cases hb : r.1 with
      | true =>
        have : R.cursor r.2.2 = _ := (a6 hb).1
        exact ⟨by omega, (decide_eq_true (by omega)).symm⟩
      | false =>
        obtain ⟨b1, b2⟩ := a7 hb hk
        have b1 : R.cursor r.2.2 < _ := b1
        rcases b2 with b2 | ⟨_, b2⟩
        · exact hno b2
        · have b2 : R.cursor r.2.2 = _ := b2
          exact ⟨by omega, (decide_eq_false (by omega)).symm⟩
    refine ⟨hc.2, ?_, hc.1⟩
    have a1 : R.cursor s ≤ R.cursor r.2.2 := a1
    have hk' : k = R.cursor r.2.2 - R.cursor s := hk'
    show r.2.1.written = _
    rw [a4, slice_min (n := n) (by omega) (by omega)]
  | copyBack n d =>
    obtain ⟨a1, a2, a3, a4, a5⟩ := m2
    unfold Exact
    dsimp only [ROp.run] at *
    generalize R.copyBack n d s = r at *
    intro hk
    have hw' : R.cursor r.2.2 ≤ D.length := Nat.le_trans hw'.2.1 hw'.2.2
    cases hb : r.1 with
    | true =>
      obtain ⟨b1, b2, b3, b4⟩ := a3 hb
      have b1 : R.cursor r.2.2 = _ := b1
      refine ⟨(decide_eq_true (by omega)).symm, ?_, by omega⟩
      rw [if_pos (by omega)]; exact b4
    | false =>
      obtain ⟨b1, b2, b3⟩ := a4 hb hk
      have b2 : R.cursor r.2.2 < _ := b2
      rcases b3 with b3 | ⟨_, b3⟩
      · exact hno b3
      · have b3 : R.cursor r.2.2 = _ := b3
        refine ⟨(decide_eq_false (by omega)).symm, ?_, by omega⟩
        rw [if_neg (by omega)]; exact b1
  | readSome k n =>
    obtain ⟨a1, a2, a3, a4, a5⟩ := m2
    unfold Exact
    dsimp only [ROp.run] at *
    generalize R.readSome k n s = r at *
    intro hn
    have hw' : R.cursor r.2.2 ≤ D.length := Nat.le_trans hw'.2.1 hw'.2.2
    have a1 : R.cursor s ≤ R.cursor r.2.2 := a1
    cases hb : r.1 with
    | true =>
      have b1 : R.cursor s < R.cursor r.2.2 := (a4 hb).1 hn
      exact ⟨(decide_eq_true (by omega)).symm, a3, fun _ => b1, a2⟩
    | false =>
      obtain ⟨b1, b2⟩ := a5 hb
      rcases b2 with b2 | ⟨_, b2⟩
      · exact hno b2
      · exact ⟨(decide_eq_false (by omega)).symm, a3, fun h => by omega, a2⟩
  | copySome n d =>
    obtain ⟨a1, a2, ⟨k, a3, a4, a5⟩, a6, a7, a8⟩ := m2
    unfold Exact
    dsimp only [ROp.run] at *
    generalize R.copySome n d s = r at *
    intro hn hk
    have hk' := a5 hk
    have hw' : R.cursor r.2.2 ≤ D.length := Nat.le_trans hw'.2.1 hw'.2.2
    have a1 : R.cursor s ≤ R.cursor r.2.2 := a1
    have e : r.2.1.written = d.written ++ slice D (R.cursor s) (R.cursor r.2.2 - R.cursor s) := by
      have hk' : k = R.cursor r.2.2 - R.cursor s := hk'
      rw [← hk']; exact a4
    cases hb : r.1 with
    | true =>
      have b1 : R.cursor s < R.cursor r.2.2 := (a6 hb).1 hn
      exact ⟨(decide_eq_true (by omega)).symm, e, fun _ => b1, a2⟩
    | false =>
      rcases a7 hb hk with b2 | ⟨_, b2⟩
      · exact hno b2
      · exact ⟨(decide_eq_false (by omega)).symm, e, fun h => by omega, a2⟩
  | readHint n rec => exact m2
  | seek q => exact seekPost q _ rfl m2
  | skip n => exact seekPost _ _ rfl m2
  | size =>
    obtain ⟨a1, a2, a3⟩ := m2
    cases hb : (R.sizeImpl s).1 with
    | some n => exact ⟨by show (R.sizeImpl s).1 = _; rw [hb, ((a2 n hb).1 trivial)], a1⟩
    | none => exact hno (a3 hb)

/-- Histories of a reader: its functions are called in any order. -/
inductive ReadHistory {σ : Type} (R : ReaderOps σ) (s : σ) : σ → Prop where
  | init : ReadHistory R s s
  | op {t} (op : ROp) : ReadHistory R s t → ReadHistory R s (op.run R t)

theorem ReadHistory.inv {σ : Type} {R : ReaderOps σ} {D : Bytes} {E : Prop} {Inv : σ → Prop} {s t : σ} (L : R.Lawful D E Inv) (hD : D.length < 2 ^ 64 - 1)
    (hs : Inv s) (h : ReadHistory R s t) : Inv t := by
  induction h with
  | init => exact hs
  | op op _ ih => exact (ROp.meets L hD op ih).1

theorem ReadHistory.ok {σ : Type} {R : ReaderOps σ} {s t : σ} (S : Unfailing R (fun _ => True)) (h : ReadHistory R s t) : R.ok t = R.ok s := by
  induction h with
  | init => rfl
  | op op _ ih => exact (S.run (fun _ => trivial) op _).trans ih

/-! ## Any `PullableReader` -/
section
variable {σ : Type} {R : ReaderOps σ} {room : Nat → Nat → Nat} {D : Bytes} {E : Prop} {I : σ → Prop} (L : R.Lawful D E I)
include L

/-- **C60.** Scratch is not visible: over any class which meets the contract without scratch, of which `Pull(n)` is used only for `n = 1`, a `PullableReader` meets the
contract of `Reader`. -/
theorem C60_is_a_reader : (PS.ops R room).Lawful D E (PS.Inv R D I) := PS.lawful L

/-- **C60.** At any point of any history, `Sync()` and `Close()` leave the source at `pos()`, or the source failed. -/
theorem C60_sync (hD : D.length < 2 ^ 64 - 1) {s : σ} (hs : I s) {t : PS σ} (h : ReadHistory (PS.ops R room) (PS.init s) t) :
    let c := t.syncImpl R
    R.cursor c.src = (PS.ops R room).cursor t ∨ R.ok c.src = false :=
  (PS.syncImpl_spec L (h.inv (PS.lawful L) hD (PS.init_inv hs))).2.2
end

/-! ## `ChainReader` -/
section
variable {bs : List Bytes} {room : Nat → Nat → Nat} (hD : bs.flatten.length < 2 ^ 64 - 1) {s : PS ChR}
  (h : ReadHistory (ChR.ops bs room) (PS.init (ChR.init bs)) s)
include hD h

/-- **C60.** After any history, a `ChainReader` did not fail, and each function returns exactly what the contents of the `Chain` and `pos()` determine. -/
theorem C60_chain_reader : (ChR.ops bs room).ok s = true ∧ (ChR.ops bs room).cursor s ≤ bs.flatten.length ∧ ∀ op, Exact (ChR.ops bs room) bs.flatten op s := by
  have L := PS.lawful (room := room) (ChR.behind_lawful bs hD)
  have S := PS.steady (room := room) (ChR.steady bs)
  have hi := h.inv L hD (PS.init_inv (ChR.init_inv bs).1)
  have ho : (ChR.ops bs room).ok s = true := (h.ok S).trans (ChR.init_inv bs).2.2
  have hw := L.window _ hi
  exact ⟨ho, Nat.le_trans hw.2.1 hw.2.2, fun op => exact_of L hD op hi ((S.run (fun _ => trivial) op s).trans ho)⟩

end

/-- **C60.** A new `ChainReader` is at the beginning. -/
theorem C60_chain_reader_begins (bs : List Bytes) (room : Nat → Nat → Nat) : (ChR.ops bs room).cursor (PS.init (ChR.init bs)) = 0 := (ChR.init_inv bs).2.1

/-! ## `CordReader` -/
section
variable {D : Bytes} {chunk block : Nat → Nat} {room : Nat → Nat → Nat} {flat : Bool} (hD : D.length < 2 ^ 64 - 1) {s : PS CdR}
  (h : ReadHistory (CdR.ops D chunk block room) (PS.init (CdR.init D chunk flat)) s)
include hD h

/-- **C60.** After any history, a `CordReader` did not fail, and each function returns exactly what the contents of the `absl::Cord` and `pos()` determine, however
the `absl::Cord` is divided to chunks. -/
theorem C60_cord_reader : (CdR.ops D chunk block room).ok s = true ∧ (CdR.ops D chunk block room).cursor s ≤ D.length ∧
    ∀ op, Exact (CdR.ops D chunk block room) D op s := by
  have L := PS.lawful (room := room) (CdR.behind_lawful (chunk := chunk) (block := block) hD)
  have S := PS.steady (room := room) (CdR.steady D chunk block)
  have hi := h.inv L hD (PS.init_inv (CdR.init_inv flat).1)
  have ho : (CdR.ops D chunk block room).ok s = true := (h.ok S).trans (CdR.init_inv flat).2.2
  have hw := L.window _ hi
  exact ⟨ho, Nat.le_trans hw.2.1 hw.2.2, fun op => exact_of L hD op hi ((S.run (fun _ => trivial) op s).trans ho)⟩

end

/-- **C60.** A new `CordReader` is at the beginning. -/
theorem C60_cord_reader_begins (D : Bytes) (chunk block : Nat → Nat) (room : Nat → Nat → Nat) (flat : Bool) :
    (CdR.ops D chunk block room).cursor (PS.init (CdR.init D chunk flat)) = 0 := (CdR.init_inv flat).2.1

/-! ## Concrete cases -/

/-- Blocks of a `Chain`, one of them empty. -/
def exBlocks : List Bytes := [[1, 2, 3], [], [4, 5], [6, 7, 8, 9]]

/-- A `ChainReader` after `Pull(5)` across blocks, reading 4 bytes from scratch, seeking back, and reading across the end of scratch. -/
def exChR : PS ChR :=
  let R := ChR.ops exBlocks (fun _ _ => 0)
  let s := (R.pull 5 0 (PS.init (ChR.init exBlocks))).2
  let s := (R.read .chars 4 s).2.2
  (R.seek 2 s).2

theorem exChR_history : ReadHistory (ChR.ops exBlocks (fun _ _ => 0)) (PS.init (ChR.init exBlocks)) exChR :=
  .op (.seek 2) (.op (.read .chars 4) (.op (.pull 5 0) .init))

example : exChR.used = true ∧ (ChR.ops exBlocks (fun _ _ => 0)).cursor exChR = 2 ∧ (ChR.ops exBlocks (fun _ _ => 0)).avail exChR = 3 := by decide +kernel

example : exBlocks.flatten.length < 2 ^ 64 - 1 := by decide +kernel

example : ((ChR.ops exBlocks (fun _ _ => 0)).read .blocks 5 exChR).2.1 = [3, 4, 5, 6, 7] ∧ ((ChR.ops exBlocks (fun _ _ => 0)).read .chars 8 exChR).1 = false := by
  decide +kernel

example : ((ChR.ops exBlocks (fun _ _ => 0)).copyBack 6 ⟨[0], 100, true⟩ exChR).2.1.written = [3, 4, 5, 6, 7, 8, 0] := by decide +kernel

example : (ChR.behind exBlocks).cursor (exChR.syncImpl (ChR.behind exBlocks)).src = 2 := by decide +kernel

/-- A `CordReader` of 9 bytes in chunks of 2 after `Pull(3)` and `Skip(1)`. -/
def exCdR : PS CdR :=
  let R := CdR.ops exBlocks.flatten (fun _ => 2) (fun _ => 3) (fun _ _ => 0)
  let s := (R.pull 3 0 (PS.init (CdR.init exBlocks.flatten (fun _ => 2) false))).2
  (R.skip 1 s).2

theorem exCdR_history : ReadHistory (CdR.ops exBlocks.flatten (fun _ => 2) (fun _ => 3) (fun _ _ => 0)) (PS.init (CdR.init exBlocks.flatten (fun _ => 2) false)) exCdR :=
  .op (.skip 1) (.op (.pull 3 0) .init)

example : exCdR.used = true ∧ ((CdR.ops exBlocks.flatten (fun _ => 2) (fun _ => 3) (fun _ _ => 0)).read .blocks 6 exCdR).2.1 = [2, 3, 4, 5, 6, 7] := by
  decide +kernel

/-- A flat short `absl::Cord`: scratch is used also then, after `Pull()` of more than there is. -/
example :
    let R := CdR.ops [1, 2, 3] (fun _ => 2) (fun _ => 3) (fun _ _ => 0)
    let s := (R.pull 5 0 (PS.init (CdR.init [1, 2, 3] (fun _ => 2) true))).2
    s.used = true ∧ R.avail s = 3 ∧ (R.read .chars 5 s).2.1 = [1, 2, 3] ∧ (R.seek 1 s).1 = true := by decide +kernel

end Riegeli.Props
