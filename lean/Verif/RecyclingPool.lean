import Verif.PoolSpec

/-!
# `RecyclingPool` and `KeyedRecyclingPool` (C48)

Models the sections of `riegeli/base/recycling_pool.h` which run under `mutex_`.
Each is a function of the state the mutex guards: it returns the objects to be
returned, destroyed, and the deadline to be passed to
`BackgroundCleaner::ScheduleCleaning()` after the mutex has been released.  How
these sections and the calls between them interleave is modelled in
`BackgroundCleaner.lean`.

A result `none` is a failed `RIEGELI_ASSERT` or undefined behaviour (an index out
of range, `back()` of an empty list, an invalid iterator).

Simplifications, for the whole file:
* `absl::Time` is a natural number, and a deadline an `Option` of it, `none` being
  `absl::InfiniteFuture()`.
* Objects put into the pool are not `nullptr` (the code requires that without saying
  so in the keyed case, where an assertion fails later).
* `absl::flat_hash_map` is a partial function: the code does not depend on the order
  of its elements.  An iterator to it (`cache_`) is the key it points to.
* Iterators of `std::list<ByAgeEntry>` are the identities of its nodes.
-/

namespace Riegeli.Pool

/-- `deadline > now`. -/
def later (deadline : Option Nat) (now : Nat) : Bool :=
  match deadline with
  | none => true
  | some d => decide (now < d)

/-- What the locked part of `RawPut()` leaves for later. -/
structure PutResult (β σ : Type) where
  evicted : Option β
  schedule : Option Nat
  pool : σ

/-- What the locked part of `Clean()` leaves for later: `schedule` is `none` if
everything was evicted. -/
structure CleanResult (β σ : Type) where
  evicted : List β
  schedule : Option (Option Nat)
  pool : σ

/-! ## `RecyclingPool` -/

/-- The guarded state of `RecyclingPool`: `ring_buffer_by_age_`,
`ring_buffer_end_`, `ring_buffer_size_` (recycling_pool.h lines 198-212). -/
structure Ring (β : Type) where
  slots : List (Option β × Option Nat)
  fin : Nat
  size : Nat

variable {β : Type}

/-- The constructor (lines 141-143): `std::vector<Entry>(max_size)`. -/
def Ring.new (maxSize : Nat) : Ring β :=
  { slots := List.replicate maxSize (none, some 0), fin := 0, size := 0 }

/-- `if (ring_buffer_end_ == 0) ring_buffer_end_ = size(); --ring_buffer_end_;`
(lines 491-494 and 525-528). -/
def Ring.pred (r : Ring β) : Nat :=
  (if r.fin = 0 then r.slots.length else r.fin) - 1

/-- The locked part of `RawGet()` (lines 523-533). -/
def Ring.take (r : Ring β) : Option (Option β × Ring β) :=
  if 0 < r.size then
    match r.slots[r.pred]? with
    | none => none
    | some e =>
      some (e.1, { slots := r.slots.set r.pred (none, e.2), fin := r.pred, size := r.size - 1 })
  else some (none, r)

/-- `RawPut()` (lines 543-571); line 544 is the case of an empty ring, where the
object is destroyed. -/
def Ring.put (b : β) (deadline : Option Nat) (r : Ring β) : Option (PutResult β (Ring β)) :=
  if r.slots.length = 0 then some { evicted := some b, schedule := none, pool := r }
  else
    match r.slots[r.fin]? with
    | none => none
    | some e =>
      let fin := if r.fin + 1 = r.slots.length then 0 else r.fin + 1
      let size := if r.size < r.slots.length then r.size + 1 else r.size
      some {
        evicted := e.1
        schedule := if 1 < size then none else deadline
        pool := { slots := r.slots.set r.fin (some b, deadline), fin := fin, size := size } }

/-- The loop of `Clear()` (lines 489-496), by recursion on `ring_buffer_size_`. -/
def Ring.clearGo : Nat → Ring β → Option (List β × Ring β)
  | 0, r => some ([], r)
  | n + 1, r =>
    match r.slots[r.pred]? with
    | none => none
    | some e =>
      (Ring.clearGo n
        { slots := r.slots.set r.pred (none, e.2), fin := r.pred, size := r.size - 1 }).map
        fun x => (e.1.toList ++ x.1, x.2)

/-- The locked part of `Clear()` (lines 486-497). -/
def Ring.clear (r : Ring β) : Option (List β × Ring β) := Ring.clearGo r.size r

/-- The loop of `Clean()` (lines 584-601), by recursion on `ring_buffer_size_`. -/
def Ring.cleanGo (now : Nat) : Nat → Nat → Ring β → Option (CleanResult β (Ring β))
  | 0, _, r => some { evicted := [], schedule := none, pool := r }
  | n + 1, index, r =>
    match r.slots[index]? with
    | none => none
    | some e =>
      if later e.2 now then some { evicted := [], schedule := some e.2, pool := r }
      else
        (Ring.cleanGo now n (if index + 1 = r.slots.length then 0 else index + 1)
          { slots := r.slots.set index (none, e.2), fin := r.fin, size := r.size - 1 }).map
          fun x => { x with evicted := e.1.toList ++ x.evicted }

/-- The locked part of `Clean()` (lines 581-602). -/
def Ring.clean (now : Nat) (r : Ring β) : Option (CleanResult β (Ring β)) :=
  Ring.cleanGo now r.size
    ((if r.fin < r.size then r.fin + r.slots.length else r.fin) - r.size) r

/-! ## `KeyedRecyclingPool` -/

/-- A node of `by_age_` (`ByAgeEntry`, recycling_pool.h lines 308-314); `id` is its
identity, to which iterators refer. -/
structure AgeNode (κ : Type) where
  id : Nat
  key : κ
  deadline : Option Nat

/-- A `ByKeyEntry` (lines 319-325): `object` is `none` for `nullptr`, `age` is
`by_age_iter`. -/
structure KeyEntry (β : Type) where
  object : Option β
  age : Nat

/-- The guarded state of `KeyedRecyclingPool`: `by_age_`, `by_key_`, `cache_`
(lines 339-349), and `max_size_`.  `fresh` is the identity of the next node of
`by_age_`. -/
structure Keyed (κ β : Type) where
  maxSize : Nat
  byAge : List (AgeNode κ)
  byKey : κ → Option (List (KeyEntry β))
  cache : Option κ
  fresh : Nat

variable {κ : Type}

/-- The constructor (lines 249-252). -/
def Keyed.new (maxSize : Nat) : Keyed κ β :=
  { maxSize := maxSize, byAge := [], byKey := fun _ => none, cache := none, fresh := 0 }

/-- Assigns or erases an element of `by_key_`. -/
def upd [DecidableEq κ] (m : κ → Option (List (KeyEntry β))) (k : κ)
    (es : Option (List (KeyEntry β))) : κ → Option (List (KeyEntry β)) :=
  fun k' => if k' = k then es else m k'

/-- `es`, or no element if `es` is empty
(`if (by_key_entries.empty()) by_key_.erase(...)`). -/
def nonEmpty (es : List (KeyEntry β)) : Option (List (KeyEntry β)) :=
  if es.isEmpty then none else some es

/-- Finishes erasing the cached entry, if any (lines 726-737 and 778-799 except for
the hit): erases the last entry of `cache_` from `by_age_` and `by_key_`.  `cache_`
itself is reassigned later by the callers. -/
def Keyed.finishErase [DecidableEq κ] (p : Keyed κ β) : Option (Keyed κ β) :=
  match p.cache with
  | none => some p
  | some k =>
    match p.byKey k with
    | none => none
    | some es =>
      match es.getLast? with
      | none => none
      | some e =>
        if e.object.isSome then none
        else
          some { p with
            byAge := p.byAge.filter (fun n => n.id != e.age)
            byKey := upd p.byKey k (nonEmpty es.dropLast) }

/-- The locked part of `RawGet()` (lines 724-752). -/
def Keyed.take [DecidableEq κ] (k : κ) (p : Keyed κ β) : Option (Option β × Keyed κ β) :=
  match p.finishErase with
  | none => none
  | some p =>
    match p.byKey k with
    | none => some (none, { p with cache := none })
    | some es =>
      match es.getLast? with
      | none => none
      | some e =>
        match e.object with
        | none => none
        | some b =>
          some (some b,
            { p with
              byKey := upd p.byKey k (some (es.dropLast ++ [{ e with object := none }]))
              cache := some k })

/-- `RawPut()` evicting the oldest entry if there are too many (lines 810-829). -/
def Keyed.evict [DecidableEq κ] (p : Keyed κ β) : Option (Option β × Keyed κ β) :=
  if p.maxSize < p.byAge.length then
    match p.byAge with
    | [] => none
    | n :: rest =>
      match p.byKey n.key with
      | none => none
      | some [] => none
      | some (e :: es) =>
        match e.object with
        | none => none
        | some b =>
          some (some b, { p with byAge := rest, byKey := upd p.byKey n.key (nonEmpty es) })
  else some (none, p)

/-- `RawPut()` without a cache hit (lines 796-829): finishes erasing the cached entry,
adds a new one, and evicts the oldest one if there are too many. -/
def Keyed.add [DecidableEq κ] (k : κ) (b : β) (deadline : Option Nat) (p : Keyed κ β) :
    Option (Option β × Keyed κ β) :=
  match p.finishErase with
  | none => none
  | some p =>
    Keyed.evict { p with
      byAge := p.byAge ++ [{ id := p.fresh, key := k, deadline := deadline }]
      byKey := upd p.byKey k (some ((p.byKey k).getD [] ++ [{ object := some b, age := p.fresh }]))
      fresh := p.fresh + 1 }

/-- `RawPut()` with `cache_` pointing to the same key (lines 786-794): sets the object
again, moves the node to the end of `by_age_` and updates its deadline. -/
def Keyed.hit [DecidableEq κ] (k : κ) (b : β) (deadline : Option Nat) (p : Keyed κ β) :
    Option (Keyed κ β) :=
  match p.byKey k with
  | none => none
  | some es =>
    match es.getLast? with
    | none => none
    | some e =>
      if e.object.isSome then none
      else
        some { p with
          byKey := upd p.byKey k (some (es.dropLast ++ [{ e with object := some b }]))
          byAge := p.byAge.filter (fun n => n.id != e.age) ++
            [{ id := e.age, key := k, deadline := deadline }] }

/-- `RawPut()` (lines 762-835). -/
def Keyed.put [DecidableEq κ] (k : κ) (b : β) (deadline : Option Nat) (p : Keyed κ β) :
    Option (PutResult β (Keyed κ β)) :=
  if p.maxSize = 0 then some { evicted := some b, schedule := none, pool := p }
  else
    (if p.cache = some k then (p.hit k b deadline).map (fun q => (none, q))
     else p.add k b deadline).map fun x =>
      { evicted := x.1
        schedule := if 1 < x.2.byAge.length then none else deadline
        pool := { x.2 with cache := none } }

/-- The locked part of `Clear()` (lines 690-696).  The objects destroyed are those in
`by_key_`, reached here through the keys in `by_age_`. -/
def Keyed.clear (p : Keyed κ β) : List β × Keyed κ β :=
  (p.byAge.filterMap (fun n =>
      (p.byKey n.key).bind fun es => (es.find? (fun e => e.age == n.id)).bind (·.object)),
    { p with byAge := [], byKey := fun _ => none, cache := none })

/-- The loop of `Clean()` (lines 846-900), by recursion on `by_age_`. -/
def Keyed.cleanGo [DecidableEq κ] (now : Nat) : List (AgeNode κ) →
    (κ → Option (List (KeyEntry β))) → Option κ →
    Option (CleanResult β (List (AgeNode κ) × (κ → Option (List (KeyEntry β))) × Option κ))
  | [], m, c => some { evicted := [], schedule := none, pool := ([], m, c) }
  | n :: rest, m, c =>
    if later n.deadline now then
      if c = some n.key then
        match m n.key with
        | none => none
        | some [] => none
        | some (e :: es) =>
          match e.object with
          | none =>
            if es.isEmpty then Keyed.cleanGo now rest (upd m n.key none) none else none
          | some _ =>
            some { evicted := [], schedule := some n.deadline, pool := (n :: rest, m, c) }
      else some { evicted := [], schedule := some n.deadline, pool := (n :: rest, m, c) }
    else
      match m n.key with
      | none => none
      | some [] => none
      | some (e :: es) =>
        match e.object with
        | none =>
          if c = some n.key && es.isEmpty then
            Keyed.cleanGo now rest (upd m n.key none) none
          else none
        | some b =>
          (Keyed.cleanGo now rest (upd m n.key (nonEmpty es)) c).map
            fun x => { x with evicted := b :: x.evicted }

/-- The locked part of `Clean()` (lines 845-901). -/
def Keyed.clean [DecidableEq κ] (now : Nat) (p : Keyed κ β) :
    Option (CleanResult β (Keyed κ β)) :=
  (Keyed.cleanGo now p.byAge p.byKey p.cache).map fun x =>
    { evicted := x.evicted, schedule := x.schedule
      pool := { p with byAge := x.pool.1, byKey := x.pool.2.1, cache := x.pool.2.2 } }

/-! ## Either kind of pool -/

/-- The locked sections of a pool with keys `κ` and objects `β`. -/
structure Impl (κ β : Type) where
  σ : Type
  new : Nat → σ
  take : κ → σ → Option (Option β × σ)
  put : κ → β → Option Nat → σ → Option (PutResult β σ)
  clear : σ → Option (List β × σ)
  clean : Nat → σ → Option (CleanResult β σ)

/-- One locked section. -/
def Impl.op (I : Impl κ β) (s : I.σ) : Op κ β → Option (Effect β × I.σ)
  | .get k => (I.take k s).map fun x => (⟨x.1, [], none⟩, x.2)
  | .put k b d => (I.put k b d s).map fun r => (⟨none, r.evicted.toList, r.schedule⟩, r.pool)
  | .clear => (I.clear s).map fun x => (⟨none, x.1, none⟩, x.2)
  | .clean now =>
    (I.clean now s).map fun r => (⟨none, r.evicted, r.schedule.bind id⟩, r.pool)

/-- `RecyclingPool`. -/
def ring (β : Type) : Impl Unit β where
  σ := Ring β
  new := Ring.new
  take := fun _ => Ring.take
  put := fun _ => Ring.put
  clear := Ring.clear
  clean := Ring.clean

/-- `KeyedRecyclingPool`. -/
def keyed (κ β : Type) [DecidableEq κ] : Impl κ β where
  σ := Keyed κ β
  new := Keyed.new
  take := Keyed.take
  put := Keyed.put
  clear := fun p => some p.clear
  clean := Keyed.clean

end Riegeli.Pool
