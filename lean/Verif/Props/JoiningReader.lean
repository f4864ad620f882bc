import Verif.JoiningReaderSteady
import Verif.Props.PullableReaders
/-!
# C61: `JoiningReader`

A `JoiningReader` of any shards is compared with the concatenation of their data. Shards which fail, closing a shard which fails, and failing to open the next shard
are included in `C61_reads_the_concatenation`; `C61_never_fails` says that there are no other failures.
-/
namespace Riegeli.Props
open Riegeli Rdr

/-- The shards are opened readers, at the beginning of their data. -/
inductive Shards {σ : Type} (R : ReaderOps σ) : List σ → List Bytes → Prop
  | nil : Shards R [] []
  | cons {t : σ} {l : List σ} {D : Bytes} {Ds : List Bytes} {E : Prop} {I : σ → Prop} : R.Lawful D E I → I t → R.ok t = true → R.cursor t = 0 →
    Shards R l Ds → Shards R (t :: l) (D :: Ds)

theorem Shards.rest {σ : Type} {R : ReaderOps σ} {l : List σ} {Ds : List Bytes} (h : Shards R l Ds) : JR.Rest R l Ds.flatten := by
  induction h with
  | nil => exact .nil
  | cons L hi ho hc _ ih =>
    have := JR.Rest.cons L hi ho ih
    rw [hc, List.drop_zero] at this
    exact this

theorem Shards.ok {σ : Type} {R : ReaderOps σ} {l : List σ} {Ds : List Bytes} (h : Shards R l Ds) : l.all R.ok = true := by
  induction h with
  | nil => rfl
  | cons _ _ ho _ _ ih => rw [List.all_cons, ho, ih]; rfl

section
variable {σ : Type} {R : ReaderOps σ} {shards : List σ} {Ds : List Bytes} {close : σ → Bool} {last : Bool} {room : Nat → Nat → Nat}
  (hs : Shards R shards Ds) (hD : Ds.flatten.length < 2 ^ 64 - 1)
include hs hD

/-- **C61.** After any history, every function of a `JoiningReader` does what it should for a reader of the concatenation of the data of the shards; at the end of
the last shard the data end, if there is no next shard rather than a failure of opening it. -/
theorem C61_reads_the_concatenation {s : PS (JR σ)} (h : ReadHistory (JR.ops R close last room) (PS.init (JR.init shards)) s) (op : ROp) :
    op.Meets (JR.ops R close last room) Ds.flatten (last = true) s ∧
    ((JR.ops R close last room).ok s = false → (JR.ops R close last room).ok (op.run (JR.ops R close last room) s) = false) := by
  have L := PS.lawful (room := room) (JR.behind_lawful (R := R) (close := close) (last := last) (D := Ds.flatten))
  have hi := h.inv L hD (PS.init_inv (JR.init_inv hs.rest))
  exact (ROp.meets L hD op hi).2

/-- **C61.** In terms of results only: as long as the reader did not fail, each function returns exactly what the concatenation and `pos()` determine. -/
theorem C61_exact {s : PS (JR σ)} (h : ReadHistory (JR.ops R close true room) (PS.init (JR.init shards)) s) (op : ROp)
    (ho : (JR.ops R close true room).ok (op.run (JR.ops R close true room) s) = true) : Exact (JR.ops R close true room) Ds.flatten op s := by
  have L := PS.lawful (room := room) (JR.behind_lawful (R := R) (close := close) (last := true) (D := Ds.flatten))
  have hi := h.inv L hD (PS.init_inv (JR.init_inv hs.rest))
  have e : (true = true) = True := eq_self true
  rw [e] at L
  exact exact_of L hD op hi ho

end

/-- Histories without seeking back and without asking for the size, which are not supported. -/
inductive ForwardHistory {σ : Type} (R : ReaderOps σ) (s : σ) : σ → Prop where
  | init : ForwardHistory R s s
  | op {t} (op : ROp) : ForwardHistory R s t → op.Forward R t → ForwardHistory R s (op.run R t)

theorem ForwardHistory.history {σ : Type} {R : ReaderOps σ} {s t : σ} (h : ForwardHistory R s t) : ReadHistory R s t := by
  induction h with
  | init => exact .init
  | op op _ _ ih => exact .op op ih

section
variable {σ : Type} {R : ReaderOps σ} {shards : List σ} {Ds : List Bytes} {close : σ → Bool} {room : Nat → Nat → Nat} {P : Nat → Prop}
  (hs : Shards R shards Ds) (hD : Ds.flatten.length < 2 ^ 64 - 1) (S : Unfailing R P) (h1 : P 1) (hc : ∀ t, close t = true) {s : PS (JR σ)}
  (h : ForwardHistory (JR.ops R close true room) (PS.init (JR.init shards)) s)
include hs hD S h1 hc h

theorem C61_sound : JR.sound R s.src = true := by
  induction h with
  | init => exact hs.ok
  | op op hh hf ih =>
    have L := PS.lawful (room := room) (JR.behind_lawful (R := R) (close := close) (last := true) (D := Ds.flatten))
    have hi := hh.history.inv L hD (PS.init_inv (JR.init_inv hs.rest))
    rw [← JR.run_eq hD hi op hf]
    exact ((PS.steady (room := room) (JR.steady (last := true) S h1 hc rfl)).run (fun _ => trivial) op _).trans ih

/-- **C61.** If shards do not fail, are closed without failures, and the last one is followed by the end, then reading and seeking forwards do not fail, closing
the reader succeeds, and each function returns exactly what the concatenation and `pos()` determine. -/
theorem C61_never_fails : (JR.ops R close true room).ok s = true ∧ s.src.close' close = true ∧
    ∀ op, op.Forward (JR.ops R close true room) s → Exact (JR.ops R close true room) Ds.flatten op s := by
  have hq := C61_sound hs hD S h1 hc h
  have hok : ∀ t : PS (JR σ), JR.sound R t.src = true → t.src.ok = true := by
    intro t ht
    unfold JR.sound at ht
    rw [Bool.and_eq_true, Bool.and_eq_true] at ht
    exact ht.1.1
  refine ⟨hok s hq, ?_, fun op hf => C61_exact hs hD h.history op (hok _ (C61_sound hs hD S h1 hc (h.op op hf)))⟩
  unfold JR.close'
  rw [hok s hq, Bool.true_and]
  cases s.src.shard with
  | none => rfl
  | some t => exact hc t

end

/-! ## Shards which are `ChainReader`s -/

/-- A `ChainReader` of each `Chain`. -/
def chainShards (cs : List (List Bytes)) : List (List Bytes × PS ChR) := cs.map fun bs => (bs, PS.init (ChR.init bs))

/-- The class of `ChainReader`s. -/
abbrev chains (room : Nat → Nat → Nat) : ReaderOps (List Bytes × PS ChR) := family fun bs => ChR.ops bs room

theorem chainShards_spec (room : Nat → Nat → Nat) (cs : List (List Bytes)) (hD : (cs.map List.flatten).flatten.length < 2 ^ 64 - 1) :
    Shards (chains room) (chainShards cs) (cs.map List.flatten) := by
  induction cs with
  | nil => exact .nil
  | cons bs cs ih =>
    rw [List.map_cons, List.flatten_cons, List.length_append] at hD
    obtain ⟨i1, i2, i3⟩ := ChR.init_inv bs
    have L := PS.lawful (room := room) (ChR.behind_lawful bs (by omega))
    exact .cons (family_lawful (R := fun bs => ChR.ops bs room) L) ⟨rfl, PS.init_inv i1⟩ i3 i2 (ih (by omega))

/-- **C61.** A `JoiningReader` of `ChainReader`s of any `Chain`s reads their concatenation: it begins at 0, does not fail, and each function, except seeking back and
`Size()`, returns exactly what the concatenation and `pos()` determine. -/
theorem C61_chains (cs : List (List Bytes)) (room : Nat → Nat → Nat) (hD : (cs.map List.flatten).flatten.length < 2 ^ 64 - 1) :
    let R := JR.ops (chains room) (fun _ => true) true room
    R.cursor (PS.init (JR.init (chainShards cs))) = 0 ∧
    ∀ s, ForwardHistory R (PS.init (JR.init (chainShards cs))) s → R.ok s = true ∧ ∀ op, op.Forward R s → Exact R (cs.map List.flatten).flatten op s := by
  intro R
  refine ⟨rfl, fun s h => ?_⟩
  have := C61_never_fails (chainShards_spec room cs hD) hD (family_steady fun bs => PS.steady (room := room) (ChR.steady bs)) trivial (fun _ => rfl) h
  exact ⟨this.1, this.2.2⟩

/-! ## Concrete cases -/

/-- Four `Chain`s, two of them empty. -/
def exChains : List (List Bytes) := [[[1, 2], [3]], [], [[]], [[4, 5, 6], [7, 8]]]

/-- A reader of them, with small scratch buffers. -/
abbrev exJR : ReaderOps (PS (JR (List Bytes × PS ChR))) := JR.ops (chains fun _ _ => 0) (fun _ => true) true fun _ _ => 0

example : (exChains.map List.flatten).flatten = [1, 2, 3, 4, 5, 6, 7, 8] ∧ (exChains.map List.flatten).flatten.length < 2 ^ 64 - 1 := by decide +kernel

/-- `Pull(5)` collects data of three shards in scratch; then 4 bytes are read, and 2 are skipped. -/
def exJoined : PS (JR (List Bytes × PS ChR)) :=
  let s := (exJR.pull 5 0 (PS.init (JR.init (chainShards exChains)))).2
  let s := (exJR.read .chars 4 s).2.2
  (exJR.skip 2 s).2

theorem exJoined_history : ForwardHistory exJR (PS.init (JR.init (chainShards exChains))) exJoined :=
  .op (.skip 2) (.op (.read .chars 4) (.op (.pull 5 0) .init trivial) trivial) trivial

example : (exJR.pull 5 0 (PS.init (JR.init (chainShards exChains)))).1 = true ∧ exJR.cursor exJoined = 6 ∧ exJR.ok exJoined = true := by decide +kernel

example : (exJR.read .blocks 2 exJoined).2.1 = [7, 8] ∧ (exJR.read .chars 3 exJoined).1 = false ∧ (exJR.read .chars 3 exJoined).2.1 = [7, 8] := by decide +kernel

example : (exJR.copy 7 ⟨[0], 100, true⟩ (PS.init (JR.init (chainShards exChains)))).2.1.written = [0, 1, 2, 3, 4, 5, 6, 7] ∧
    (exJR.copyBack 4 ⟨[0], 100, true⟩ (PS.init (JR.init (chainShards exChains)))).2.1.written = [1, 2, 3, 4, 0] := by decide +kernel

/-- Seeking back out of the buffer and asking for the size are not supported. -/
example : (exJR.seek 0 exJoined).1 = false ∧ exJR.ok (exJR.seek 0 exJoined).2 = false ∧ (exJR.sizeImpl exJoined).1 = none := by decide +kernel

/-- A shard which cannot be closed: reading fails after its data. -/
example :
    let R := JR.ops (chains fun _ _ => 0) (fun s => s.1.length != 2) true fun _ _ => 0
    let r := R.read .chars 5 (PS.init (JR.init (chainShards exChains)))
    r.1 = false ∧ r.2.1 = [1, 2, 3] ∧ R.ok r.2.2 = false := by decide +kernel

/-- `Close()` closes the open shard without moving its cursor to `pos()`: after reading 2 bytes, one at a time, the shard is closed at 0. `CloseShard()`
(`joining_reader.cc:111-120`) would move it first. -/
example :
    let s := (exJR.readByte (exJR.readByte (PS.init (JR.init (chainShards exChains)))).2).2
    exJR.cursor s = 2 ∧ s.src.close' (fun t => (chains fun _ _ => 0).cursor t == 2) = false ∧
    s.src.close' (fun t => (chains fun _ _ => 0).cursor t == 0) = true := by decide +kernel

end Riegeli.Props
