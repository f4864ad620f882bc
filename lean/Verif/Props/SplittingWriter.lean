import Verif.SplittingWriterProofs
import Verif.Props.StringWriter
/-!
# C63: `SplittingWriter`

Shards are writers of any class `W` which meets the contract of `Writer` (`WriterOps.Lawful`); `view t` are the contents of the shard `t`. `shards` are the
shards, with their size limits, which `OpenShardImpl()` provides; they are new and empty, and size limits are positive. `close t` says whether `Close()` of
the shard `t` succeeds; it does not for a shard which failed. `empty` is `AllowEmptyShards()`. `room` are arbitrary sizes of scratch memory.

`closed` in the state are the shards which were closed successfully, in the order of closing, with their size limits. `WOp.bytes` are the data which a call
writes.
-/
namespace Riegeli.Props
open Riegeli Wtr

section
variable {σ : Type} {W : WriterOps σ} {view dest : σ → Bytes} {Inv : σ → Prop} (L : W.Lawful view dest Inv) {close : σ → Bool}
  (hclose : ∀ t, close t = true → W.ok t = true) (empty : Bool) (room : Nat → Nat → Nat → Nat) {shards : List (σ × Nat)}
  (hs : ∀ p ∈ shards, Inv p.1 ∧ view p.1 = [] ∧ W.pos p.1 = 0 ∧ 0 < p.2) (os : List WOp)
include L hclose hs

/-- What holds after `Flush()` or `Close()` succeeded. -/
theorem split_flush (ty : FlushType) :
    let r := (Sp.init shards).callAll W close empty room os
    let c := r.2.flushImpl W close ty
    c.1 = true → Sp.Live W empty view Inv false (shards.map (·.2)) (os.map WOp.bytes).flatten r.2 ∧
      Sp.Live W empty view Inv false (shards.map (·.2)) (os.map WOp.bytes).flatten c.2 ∧ c.2.shard = none ∧ c.2.scratch = none ∧
      (∀ p ∈ os.zip r.1, p.2 = true ∨ p.1 = .supportsRandomAccess) := by
  intro r c hc
  rcases Sp.callAll_spec (room := room) (os := os) L hclose (fun _ _ _ => trivial) (Sp.init_live (empty := empty) (F := false) hs) nofun (fun _ _ _ => trivial) with ⟨a1, a2⟩ | a1
  · rw [List.nil_append] at a1
    obtain ⟨b1, b2⟩ := Sp.flushImpl_spec (ty := ty) L hclose (fun _ _ _ => trivial) a1
    obtain ⟨b3, b4, -⟩ := b2 hc
    rcases b1 with ⟨b1, -⟩ | ⟨-, b1⟩
    · exact ⟨a1, b1, b3, b4, a2⟩
    · exact (Bool.false_ne_true (b1.symm.trans hc)).elim
  · exact (Bool.false_ne_true ((Sp.flushImpl_bad (ty := ty) L hclose (fun _ _ _ => trivial) a1).1.symm.trans hc)).elim

/-- **C63.** In any history of calls of a `SplittingWriter`, if `Close()` succeeds then the contents of the closed shards, concatenated, are exactly the data
which were written, in order; no shard is left open; all calls succeeded, except asking whether random access is supported; `pos()` was right. -/
theorem C63_close :
    let r := (Sp.init shards).callAll W close empty room os
    let c := r.2.done W close
    c.1 = true → (c.2.closed.map (fun p => view p.1)).flatten = (os.map WOp.bytes).flatten ∧ c.2.shard = none ∧ c.2.fresh = [] ∧
      (∀ p ∈ os.zip r.1, p.2 = true ∨ p.1 = .supportsRandomAccess) ∧ r.2.pos = (os.map WOp.bytes).flatten.length := by
  intro r c hc
  obtain ⟨a1, a2, a3, a4, a5⟩ := split_flush L hclose empty room hs os .fromObject hc
  have e := (a2.none a3).2.2.1
  rw [Sp.fresh_none a4, List.append_nil] at e
  exact ⟨e, a3, Sp.fresh_none a4, a5, a1.pos⟩

/-- **C63.** The same for `Flush()`, in the middle of writing. -/
theorem C63_flush (ty : FlushType) :
    let r := (Sp.init shards).callAll W close empty room os
    let c := r.2.flushImpl W close ty
    c.1 = true → (c.2.closed.map (fun p => view p.1)).flatten = (os.map WOp.bytes).flatten ∧ c.2.shard = none ∧ c.2.fresh = [] ∧
      (∀ p ∈ os.zip r.1, p.2 = true ∨ p.1 = .supportsRandomAccess) ∧ c.2.pos = r.2.pos := by
  intro r c hc
  obtain ⟨a1, a2, a3, a4, a5⟩ := split_flush L hclose empty room hs os ty hc
  have e := (a2.none a3).2.2.1
  rw [Sp.fresh_none a4, List.append_nil] at e
  exact ⟨e, a3, Sp.fresh_none a4, a5, a2.pos.trans a1.pos.symm⟩

/-- **C63.** If `Close()` succeeds then no shard exceeds its size limit; there are no empty shards unless `AllowEmptyShards()`; size limits are those which
`OpenShardImpl()` provided, in order, without skipping. -/
theorem C63_shards :
    let c := ((Sp.init shards).callAll W close empty room os).2.done W close
    c.1 = true → (∀ p ∈ c.2.closed, (view p.1).length ≤ p.2) ∧ (empty = false → ∀ p ∈ c.2.closed, view p.1 ≠ []) ∧
      c.2.closed.map (·.2) ++ c.2.rest.map (·.2) = shards.map (·.2) := by
  intro c hc
  obtain ⟨a1, a2, a3, a4, a5⟩ := split_flush L hclose empty room hs os .fromObject hc
  exact ⟨fun p hp => (a2.parts.closed p hp).1, fun he p hp => (a2.parts.closed p hp).2.1 he, (a2.none a3).2.2.2.2⟩

/-- **C63.** Without calls of `Flush()`, all shards except the last one are filled exactly to their size limits. -/
theorem C63_full (hf : ∀ ty, WOp.flush ty ∉ os) :
    let c := ((Sp.init shards).callAll W close empty room os).2.done W close
    c.1 = true → ∀ p ∈ c.2.closed.dropLast, (view p.1).length = p.2 := by
  intro c hc
  rcases Sp.callAll_spec (room := room) (os := os) L hclose (fun _ _ _ => trivial) (Sp.init_live (empty := empty) (F := true) hs) (fun _ => hf) (fun _ _ _ => trivial) with ⟨a1, -⟩ | a1
  · obtain ⟨-, b2⟩ := Sp.flushImpl_spec (ty := .fromObject) L hclose (fun _ _ _ => trivial) a1.weaken
    obtain ⟨-, -, b3⟩ := b2 hc
    rcases (Sp.sync_spec L hclose (fun _ _ _ => trivial) a1).1 with ⟨d1, -⟩ | ⟨-, d1⟩
    · intro p hp
      rcases b3 with b3 | ⟨q, b3⟩
      · exact (d1.parts.closed p (b3 ▸ List.dropLast_subset _ hp)).2.2 rfl
      · have hp : p ∈ (((Sp.init shards).callAll W close empty room os).2.flushImpl W close .fromObject).2.closed.dropLast := hp
        rw [b3, List.dropLast_concat] at hp
        exact (d1.parts.closed p hp).2.2 rfl
    · have : c.1 = false := by
        show (Sp.flushImpl W close .fromObject _).1 = false
        unfold Sp.flushImpl
        dsimp only
        rw [if_pos d1]
      exact (Bool.false_ne_true (this.symm.trans hc)).elim
  · exact (Bool.false_ne_true ((Sp.flushImpl_bad (ty := .fromObject) L hclose (fun _ _ _ => trivial) a1).1.symm.trans hc)).elim

/-- **C63.** After `Push(n)` returned true, at least `n` bytes are available. -/
theorem C63_push (n rec : Nat) :
    let r := (Sp.init shards).callAll W close empty room os
    let p := (Sp.ops W close empty room).push n rec r.2
    p.1 = true → n ≤ p.2.avail := by
  intro r p hp
  rcases Sp.callAll_spec (room := room) (os := os) L hclose (fun _ _ _ => trivial) (Sp.init_live (empty := empty) (F := false) hs) nofun (fun _ _ _ => trivial) with ⟨a1, -⟩ | a1
  · exact (Sp.push_spec L hclose (fun _ _ _ => trivial) a1).2 hp
  · rw [(Sp.push_bad (empty := empty) (room := room) (n := n) (rec := rec) L hclose (fun _ _ _ => trivial) a1).2 hp]
    exact Nat.zero_le _

/-- **C63.** Failures are kept: once the writer failed, or any call returned false except asking whether random access is supported, `Write()` of any data,
`Flush()` and `Close()` return false, after any further calls. -/
theorem C63_failures_are_kept (os' : List WOp) :
    let r := (Sp.init shards).callAll W close empty room os
    let r' := r.2.callAll W close empty room os'
    (r.2.ok = false ∨ ∃ p ∈ os.zip r.1, p.2 = false ∧ p.1 ≠ .supportsRandomAccess) →
      (∀ op : WOp, op.bytes ≠ [] → ((Sp.ops W close empty room).call op r'.2).1 = false) ∧ (∀ ty, (r'.2.flushImpl W close ty).1 = false) ∧
      (r'.2.done W close).1 = false := by
  intro r r' ho
  have hb : Sp.Bad W Inv True r.2 := by
    rcases Sp.callAll_spec (room := room) (os := os) L hclose (fun _ _ _ => trivial) (Sp.init_live (empty := empty) (F := false) hs) nofun (fun _ _ _ => trivial) with ⟨a1, a2⟩ | a1
    · rcases ho with ho | ⟨p, hp, h1, h2⟩
      · exact (Bool.false_ne_true (ho.symm.trans a1.parts.ok)).elim
      · rcases a2 p hp with h3 | h3
        · exact (Bool.false_ne_true (h1.symm.trans h3)).elim
        · exact (h2 h3).elim
    · exact a1
  have hb' : Sp.Bad W Inv True r'.2 := Sp.callAll_bad L hclose (fun _ _ _ => trivial) hb
  refine ⟨fun op hop => ?_, fun ty => (Sp.flushImpl_bad L hclose (fun _ _ _ => trivial) hb').1, (Sp.flushImpl_bad L hclose (fun _ _ _ => trivial) hb').1⟩
  obtain ⟨-, c2⟩ := Sp.call_bad (empty := empty) (room := room) (op := op) L hclose (fun _ _ _ => trivial) hb'
  cases hr : ((Sp.ops W close empty room).call op r'.2).1 with
  | false => rfl
  | true => exact (hop (c2 hr)).elim

/-- **C63.** There are no other failures: if shards never fail then, as long as there are shards to be opened, all calls of supported functions succeed, and so
do `Flush()` and `Close()`. -/
theorem C63_fails_only_without_shards (hok : ∀ t, Inv t → W.ok t = true ∧ close t = true) (hu : ∀ op ∈ os, op.unsupported = false) :
    let r := (Sp.init shards).callAll W close empty room os
    (r.2.rest ≠ [] → r.2.ok = true ∧ ∀ p ∈ os.zip r.1, p.2 = true ∨ p.1 = .supportsRandomAccess) ∧
    (∀ ty, (r.2.flushImpl W close ty).2.rest ≠ [] → (r.2.flushImpl W close ty).1 = true) ∧ ((r.2.done W close).2.rest ≠ [] → (r.2.done W close).1 = true) := by
  intro r
  have hC : ∀ t, Inv t → W.ok t = false ∨ close t = false → False := fun t ht h =>
    h.elim (fun h => Bool.false_ne_true (h.symm.trans (hok t ht).1)) (fun h => Bool.false_ne_true (h.symm.trans (hok t ht).2))
  have bad : ∀ s : Sp σ, Sp.Bad W Inv False s → s.rest = [] := by
    intro s h
    rcases h with h | ⟨t, -, h⟩
    · exact h.2.2.2.2.elim id False.elim
    · exact (hC t h.1 (.inl h.2.1)).elim
  have main := Sp.callAll_spec (room := room) (os := os) L hclose hC (Sp.init_live (empty := empty) (F := false) hs) nofun
    (fun op ho hf => Bool.false_ne_true ((hu op ho).symm.trans hf))
  have fl : ∀ ty, (r.2.flushImpl W close ty).2.rest ≠ [] → (r.2.flushImpl W close ty).1 = true := by
    intro ty hr
    rcases main with ⟨a1, -⟩ | a1
    · rcases (Sp.flushImpl_spec (ty := ty) L hclose hC a1).1 with ⟨-, b⟩ | ⟨b, -⟩
      · exact b
      · exact (hr (bad _ b)).elim
    · exact (hr (bad _ (Sp.flushImpl_bad (ty := ty) L hclose hC a1).2)).elim
  refine ⟨fun hr => ?_, fl, fl .fromObject⟩
  rcases main with ⟨a1, a2⟩ | a1
  · exact ⟨a1.parts.ok, a2⟩
  · exact (hr (bad _ a1)).elim

end

/-- **C63.** What does not hold: "a function which fails makes the writer failed" (`object.h`, `writer.h`). If flushing the open shard fails then `Flush()` returns
false but the writer stays OK, without a buffer. -/
theorem C63_failed_flush_leaves_writer_ok {σ : Type} (W : WriterOps σ) (close : σ → Bool) (s : Sp σ) (t : σ) (ho : s.ok = true) (hs : s.shard = some t)
    (hn : s.scratch = none) (hf : (W.flushImpl .fromProcess (W.put s.buf t)).1 = false) :
    (s.flushImpl W close .fromProcess).1 = false ∧ (s.flushImpl W close .fromProcess).2.ok = true ∧ (s.flushImpl W close .fromProcess).2.avail = 0 := by
  have e : s.sync W close = (true, s) := by unfold Sp.sync; rw [hn]
  unfold Sp.flushImpl
  rw [e]
  dsimp only
  rw [if_neg nofun]
  unfold Sp.flushBehind
  rw [if_neg (by rw [ho]; nofun), hs]
  dsimp only
  rw [if_pos hf]
  refine ⟨rfl, ho, ?_⟩
  unfold Sp.avail Sp.syncBuffer
  dsimp only
  rw [hn]
  rfl

/-! ## Examples -/

/-- Shards are strings with the given size limits. -/
def exShards (ls : List Nat) : List (SW × Nat) := ls.map (fun l => (SW.init [] 2 false, l))

/-- The hypotheses are met. -/
example (ls : List Nat) (h : ∀ l ∈ ls, 0 < l) : (SW.ops exString).Lawful SW.view SW.seen SW.Inv ∧ (∀ t, SW.ok t = true → (SW.ops exString).ok t = true) ∧
    ∀ p ∈ exShards ls, SW.Inv p.1 ∧ SW.view p.1 = [] ∧ (SW.ops exString).pos p.1 = 0 ∧ 0 < p.2 := by
  refine ⟨SW.lawful, fun _ h => h, fun p hp => ?_⟩
  obtain ⟨l, hl, rfl⟩ := List.mem_map.mp hp
  refine ⟨(SW.init_spec (d := []) (cap := 2) (Nat.zero_le _) false).1, ?_, rfl, h l hl⟩
  show SW.view (SW.init [] 2 false) = []
  decide +kernel

/-- A writer to memory which never fails: the contents, the position, how many bytes are available, contents at the last `Flush()`. -/
structure Mem where
  data : Bytes
  pos : Nat
  avail : Nat
  seen : Bytes

namespace Mem

/-- Writes data. -/
def add (bs : Bytes) (avail : Nat) (s : Mem) : Mem := ⟨overlay s.data s.pos bs, s.pos + bs.length, avail, s.seen⟩

/-- Its functions. -/
def ops : WriterOps Mem where
  pos := Mem.pos
  avail := Mem.avail
  ok _ := true
  put bs s := s.add bs (s.avail - bs.length)
  pushSlow n _ s := (true, { s with avail := n })
  writeSlow bs s := (true, s.add bs 0)
  fillSlow n b s := (true, s.add (List.replicate n b) 0)
  flushImpl _ s := (true, { s with seen := s.data })
  seekSlow q s := if q ≤ s.data.length then (true, { s with pos := q, avail := 0 }) else (false, { s with pos := s.data.length, avail := 0 })
  sizeImpl s := (some s.data.length, s)
  truncateImpl n s := if n ≤ s.data.length then (true, { s with data := s.data.take n, pos := n, avail := 0 }) else (false, { s with pos := s.data.length, avail := 0 })
  readModeImpl _ s := (true, { s with seen := s.data })
  randomAccess s := (true, s)
  setHint _ s := s

theorem add_le {bs : Bytes} {s : Mem} (h : s.pos ≤ s.data.length) : s.pos + bs.length ≤ (overlay s.data s.pos bs).length := by
  by_cases hb : bs = []
  · subst hb
    rw [overlay_nil]
    exact h
  · rw [overlay_length hb]
    omega

theorem lawful : ops.Lawful Mem.data Mem.seen (fun s => s.pos ≤ s.data.length) where
  avail _ _ h := nomatch h
  put bs s h hb := ⟨add_le h, rfl, rfl, rfl, rfl, rfl⟩
  pushSlow n rec s h hn := ⟨⟨h, fun _ => ⟨(overlay_nil _ _).symm, rfl, rfl⟩, nofun, nofun, Mixed.old _ _ _ _ _⟩, fun _ => ⟨Nat.le_refl _, rfl⟩⟩
  writeSlow bs s h hn := ⟨⟨add_le h, fun _ => ⟨rfl, rfl, rfl⟩, nofun, nofun, Mixed.old _ _ _ _ _⟩, fun _ => rfl⟩
  fillSlow n b s h hn := ⟨⟨add_le h, fun _ => ⟨rfl, rfl, rfl⟩, nofun, nofun, Mixed.old _ _ _ _ _⟩, fun _ => rfl⟩
  flushImpl t s h := ⟨⟨h, fun _ => ⟨(overlay_nil _ _).symm, rfl, rfl⟩, nofun, nofun, Mixed.mid _ _ _ _ _⟩, fun _ => ⟨rfl, fun _ => rfl⟩⟩
  seekSlow q s h hq := by
    unfold ops
    dsimp only
    by_cases hl : q ≤ s.data.length
    · rw [if_pos hl]
      exact ⟨hl, fun _ => rfl, fun _ => ⟨rfl, rfl, rfl, Nat.le_trans hl (Nat.le_max_left _ _)⟩, nofun, nofun, Mixed.old _ _ _ _ _⟩
    · rw [if_neg hl]
      exact ⟨Nat.le_refl _, fun _ => rfl, nofun, fun _ => .inr ⟨rfl, Nat.lt_of_not_le hl⟩, nofun, Mixed.old _ _ _ _ _⟩
  sizeImpl s h := ⟨h, fun n hn => ⟨(Option.some.inj hn).symm, rfl, rfl, rfl, rfl⟩, nofun, nofun, Mixed.old _ _ _ _ _⟩
  truncateImpl n s h _ := by
    unfold ops
    dsimp only
    by_cases hl : n ≤ s.data.length
    · rw [if_pos hl]
      refine ⟨?_, fun _ => ⟨Nat.le_trans hl (Nat.le_max_left _ _), ?_, rfl, rfl, rfl⟩, nofun, nofun, Mixed.old _ _ _ _ _⟩
      · show n ≤ (s.data.take n).length
        rw [List.length_take]
        omega
      · show s.data.take n = resize n s.data
        unfold resize
        rw [Nat.sub_eq_zero_of_le hl, List.replicate_zero, List.append_nil]
    · rw [if_neg hl]
      exact ⟨Nat.le_refl _, nofun, fun _ => .inr ⟨rfl, rfl, Nat.lt_of_not_le hl⟩, nofun, Mixed.old _ _ _ _ _⟩
  readModeImpl q s h := ⟨⟨h, fun _ => ⟨(overlay_nil _ _).symm, rfl, rfl⟩, nofun, nofun, Mixed.mid _ _ _ _ _⟩, fun _ => ⟨rfl, rfl⟩⟩
  randomAccess s h := ⟨h, rfl, fun _ => ⟨rfl, rfl⟩, fun _ => ⟨rfl, rfl⟩, nofun⟩
  setHint n s h := ⟨h, fun _ => ⟨rfl, rfl⟩, nofun, rfl⟩

end Mem

/-- The hypotheses of `C63_fails_only_without_shards` are met: shards in memory, with size limits `l` and 1, 2, 3, ... -/
example (l : Nat) (h : 0 < l) (k : Nat) :
    let shards := (⟨[], 0, 0, []⟩, l) :: (List.range k).map (fun i => ((⟨[], 0, 0, []⟩ : Mem), i + 1))
    (∀ t : Mem, t.pos ≤ t.data.length → Mem.ops.ok t = true ∧ (fun _ : Mem => true) t = true) ∧
    ∀ p ∈ shards, p.1.pos ≤ p.1.data.length ∧ p.1.data = [] ∧ Mem.ops.pos p.1 = 0 ∧ 0 < p.2 := by
  refine ⟨fun _ _ => ⟨rfl, rfl⟩, fun p hp => ?_⟩
  rcases List.mem_cons.mp hp with rfl | hp
  · exact ⟨Nat.zero_le _, rfl, rfl, h⟩
  · obtain ⟨i, -, rfl⟩ := List.mem_map.mp hp
    exact ⟨Nat.zero_le _, rfl, rfl, Nat.succ_pos _⟩

/-- The results of a history with shards of the given size limits. -/
def exSplit (empty : Bool) (ls : List Nat) (os : List WOp) : List Bool × Sp SW :=
  (Sp.init (exShards ls)).callAll (SW.ops exString) SW.ok empty (fun _ _ _ => 4) os

/-- The contents of closed shards after `Close()`, if it succeeds. -/
def exClosed (r : List Bool × Sp SW) : Option (List Bytes) :=
  let c := r.2.done (SW.ops exString) SW.ok
  if c.1 = true then some (c.2.closed.map (fun p => SW.view p.1)) else none

/-- Data are split at size limits; `Push()` over a size limit uses scratch. -/
example :
    let r := exSplit false [4, 3, 5, 2] [.write [1, 2], .push 3 0, .write [3, 4, 5], .writeChain [[6], [7, 8]], .setWriteSizeHint (some 9), .writeChar 9]
    r.1 = [true, true, true, true, true, true] ∧ r.2.ok = true ∧ r.2.pos = 9 ∧ exClosed r = some [[1, 2, 3, 4], [5, 6, 7], [8, 9]] := by decide +kernel

/-- One write over many shards. -/
example :
    exClosed (exSplit false [1, 2, 3, 4] [.fill 9 7]) = some [[7], [7, 7], [7, 7, 7], [7, 7, 7]] ∧
    exClosed (exSplit false [1, 2, 3, 4] [.writeExternal [1, 2, 3, 4, 5, 6]]) = some [[1], [2, 3], [4, 5, 6]] ∧
    exClosed (exSplit false [1, 2, 3, 4] [.writeChain [[1, 2], [3, 4], [5, 6, 7]]]) = some [[1], [2, 3], [4, 5, 6], [7]] := by decide +kernel

/-- `Flush()` begins a new shard. -/
example : exClosed (exSplit false [4, 4, 4] [.write [1, 2], .flush .fromProcess, .write [3], .flush .fromObject, .flush .fromMachine]) = some [[1, 2], [3]] := by
  decide +kernel

/-- `Push()` opens a shard only if empty shards are allowed. -/
example : exClosed (exSplit false [4, 4] [.push 1 0]) = some [] ∧ exClosed (exSplit true [4, 4] [.push 1 0]) = some [[]] ∧
    exClosed (exSplit false [2, 4] [.write [1, 2], .push 1 0]) = some [[1, 2]] ∧ exClosed (exSplit true [2, 4] [.write [1, 2], .push 1 0]) = some [[1, 2], []] := by
  decide +kernel

/-- There are not enough shards. -/
example :
    let r := exSplit true [2, 1] [.write [1, 2], .write [3, 4], .writeChar 5]
    r.1 = [true, false, false] ∧ r.2.ok = false ∧ exClosed r = none ∧ r.2.closed.map (fun p => SW.view p.1) = [[1, 2], [3]] := by decide +kernel

/-- Unsupported functions. -/
example : (exSplit false [4, 3] [.write [1, 2], .seek 2, .supportsRandomAccess, .writeChar 3]).1 = [true, true, false, true] ∧
    exClosed (exSplit false [4, 3] [.write [1, 2], .seek 1]) = none ∧ (exSplit false [4, 3] [.write [1, 2], .size, .writeChar 3]).1 = [true, false, false] := by
  decide +kernel

/-- What does not hold if a size limit is 0 and empty shards are allowed: `Push(1)` returns true, but nothing is available. -/
example :
    let p := (Sp.ops (SW.ops exString) SW.ok true (fun _ _ _ => 4)).push 1 0 (Sp.init (exShards [0, 4]))
    p.1 = true ∧ p.2.avail = 0 ∧ p.2.ok = true := by decide +kernel

/-- The result of a failing `Flush()`, with a shard which cannot be flushed. -/
example :
    let W := { SW.ops exString with flushImpl := fun _ s => (false, { s with ok := false, lim := 0, cur := 0 }) }
    let r := (Sp.init (exShards [4])).callAll W SW.ok false (fun _ _ _ => 4) [.write [1, 2], .flush .fromProcess, .write [3]]
    r.1 = [true, false, false] ∧ ((Sp.init (exShards [4])).callAll W SW.ok false (fun _ _ _ => 4) [.write [1, 2], .flush .fromProcess]).2.ok = true := by
  decide +kernel

/-- **C63.** The write size hint given to a new shard does not exceed the size limit of the shard, nor what the hint given to the `SplittingWriter` says is left. -/
theorem C63_hint_within_limit {σ : Type} {W : WriterOps σ} {s : Sp σ} {u : σ × Nat} {us : List (σ × Nat)} (h : s.rest = u :: us) :
    ∃ n, (s.openShard W).2.shard = some (W.setHint (some n) u.1) ∧ n ≤ u.2 ∧ (∀ m, s.hint = some m → n ≤ m - s.startPos) ∧
      (s.hint = none → n = u.2) := by
  unfold Sp.openShard
  rw [h]
  refine ⟨_, rfl, ?_, ?_, ?_⟩
  · unfold Sp.shardHint
    dsimp only
    split <;> omega
  · intro m hm
    unfold Sp.shardHint
    dsimp only
    rw [hm]
    dsimp only
    omega
  · intro hm
    unfold Sp.shardHint
    dsimp only
    rw [hm]
    dsimp only
    omega

/-- After 4 bytes of 10 the second shard, with size limit 3, remains to be opened. -/
example :
    let r := exSplit true [4, 3] [.setWriteSizeHint (some 10), .write [1, 2, 3, 4]]
    r.2.rest.map (·.2) = [3] ∧ r.2.hint = some 10 ∧ r.2.ok = true := by decide +kernel

end Riegeli.Props
