import Verif.MessageHandlers
import Verif.MessageRoundTrip
import Verif.Props.MessageWriter
/-!
# C46: reading messages field by field

The specification is in `Verif/MessageReadSpec.lean`: `Begins`/`Parses` (which fields a serialized message consists of), `Meaning` (which fields a handler accepts, and its
actions), `ReadResult` (the result of reading a message). `Means` below says what the handlers of the library do with each field.
-/
namespace Riegeli.Props
open Riegeli Msg Vio

section
variable {γ : Type}

/-- What a field handler means: which fields it accepts, and what it does with them. -/
inductive Means : On γ → Meaning γ → Prop
  | optionalVarint {f : Nat} {k : Kind} {a : Value → γ → Bool × γ} :
      Means (.optionalVarint f k a) { varint := fun g => if g = f then some (fun repr => a (decodeVarint k repr)) else none }
  | repeatedVarint {f : Nat} {k : Kind} {a : Value → γ → Bool × γ} {b : Bytes → γ → Bool × γ} :
      (∀ bs c, PackedVarintResult (fun repr => a (decodeVarint k repr)) bs c (b bs c)) →
      Means (.repeatedVarint f k a)
        { varint := fun g => if g = f then some (fun repr => a (decodeVarint k repr)) else none, len := fun g => if g = f then some b else none }
  | optionalFixed32 {f : Nat} {a : Nat → γ → Bool × γ} : Means (.optionalFixed32 f a) { fixed32 := fun g => if g = f then some a else none }
  | repeatedFixed32 {f : Nat} {a : Nat → γ → Bool × γ} {b : Bytes → γ → Bool × γ} : (∀ bs c, PackedFixedResult 4 a bs c (b bs c)) →
      Means (.repeatedFixed32 f a) { fixed32 := fun g => if g = f then some a else none, len := fun g => if g = f then some b else none }
  | optionalFixed64 {f : Nat} {a : Nat → γ → Bool × γ} : Means (.optionalFixed64 f a) { fixed64 := fun g => if g = f then some a else none }
  | repeatedFixed64 {f : Nat} {a : Nat → γ → Bool × γ} {b : Bytes → γ → Bool × γ} : (∀ bs c, PackedFixedResult 8 a bs c (b bs c)) →
      Means (.repeatedFixed64 f a) { fixed64 := fun g => if g = f then some a else none, len := fun g => if g = f then some b else none }
  | string {f : Nat} {a : Bytes → γ → Bool × γ} : Means (.string f a) { len := fun g => if g = f then some a else none }
  | message {f : Nat} {hs : List (On γ)} {ms : List (Meaning γ)} {b : Bytes → γ → Bool × γ} :
      hs.length = ms.length → (∀ i (h : i < hs.length) (h' : i < ms.length), Means hs[i] ms[i]) → (∀ bs c, ReadResult ms bs c (b bs c)) →
      Means (.message f hs) { len := fun g => if g = f then some b else none }
  | beforeGroup {f : Nat} {a : γ → Bool × γ} : Means (.beforeGroup f a) { start := fun g => if g = f then some a else none }
  | afterGroup {f : Nat} {a : γ → Bool × γ} : Means (.afterGroup f a) { stop := fun g => if g = f then some a else none }
  | dynamic {m : Meaning γ} : Means (.dynamic m) m

/-- The same for handlers in sequence. -/
def MeansAll (hs : List (On γ)) (ms : List (Meaning γ)) : Prop :=
  hs.length = ms.length ∧ ∀ i (h : i < hs.length) (h' : i < ms.length), Means hs[i] ms[i]

theorem refinesAll_of {ι : Type} {R : ι → StrAct γ → Prop} {g : On γ → Handler γ ι} : ∀ (hs : List (On γ)) (ms : List (Meaning γ)), hs.length = ms.length →
    (∀ i (h : i < hs.length) (h' : i < ms.length), Refines R (g hs[i]) ms[i]) → RefinesAll R (hs.map g) ms
  | [], [], _, _ => .nil
  | h :: hs, m :: ms, hl, H =>
    .cons (H 0 (by simp) (by simp)) (refinesAll_of hs ms (by simpa using hl) (fun i h1 h2 => H (i + 1) (by simpa using h1) (by simpa using h2)))
  | [], _ :: _, hl, _ => absurd hl (by simp)
  | _ :: _, [], hl, _ => absurd hl (by simp)

theorem readers_eq : ∀ (hs : List (On γ)), On.readers hs = hs.map On.reader
  | [] => by rw [On.readers]; rfl
  | h :: hs => by rw [On.readers, readers_eq hs]; rfl

theorem cords_eq : ∀ (hs : List (On γ)), On.cords hs = hs.map On.cord
  | [] => by rw [On.cords]; rfl
  | h :: hs => by rw [On.cords, cords_eq hs]; rfl

theorem strs_eq : ∀ (hs : List (On γ)), On.strs hs = hs.map On.str
  | [] => by rw [On.strs]; rfl
  | h :: hs => by rw [On.strs, strs_eq hs]; rfl

theorem only_len {ι : Type} {R : ι → StrAct γ → Prop} {f : Nat} {x : ι} {b : StrAct γ} (h : R x b) (g : Nat) :
    ((some (only f x) : Option (Nat → Option ι)).bind (· g) = none ∧ (if g = f then some b else none) = none) ∨
    ∃ a b', (some (only f x) : Option (Nat → Option ι)).bind (· g) = some a ∧ (if g = f then some b else none) = some b' ∧ R a b' := by
  by_cases hg : g = f
  · refine .inr ⟨x, b, ?_, if_pos hg, h⟩
    show only f x g = _
    unfold only
    rw [if_pos hg]
  · refine .inl ⟨?_, if_neg hg⟩
    show only f x g = _
    unfold only
    rw [if_neg hg]

theorem dyn_len {ι : Type} {R : ι → StrAct γ → Prop} {m : Meaning γ} {k : StrAct γ → ι} (h : ∀ a, R (k a) a) (g : Nat) :
    ((some (fun f => (m.len f).map k) : Option (Nat → Option ι)).bind (· g) = none ∧ m.len g = none) ∨
    ∃ a b', (some (fun f => (m.len f).map k) : Option (Nat → Option ι)).bind (· g) = some a ∧ m.len g = some b' ∧ R a b' := by
  show ((m.len g).map k = none ∧ _) ∨ ∃ a b', (m.len g).map k = some a ∧ _
  cases m.len g with
  | none => exact .inl ⟨rfl, rfl⟩
  | some a => exact .inr ⟨_, _, rfl, rfl, h a⟩

theorem none_len {ι : Type} {R : ι → StrAct γ → Prop} (g : Nat) :
    ((none : Option (Nat → Option ι)).bind (· g) = none ∧ (none : Option (StrAct γ)) = none) ∨
    ∃ a b', (none : Option (Nat → Option ι)).bind (· g) = some a ∧ (none : Option (StrAct γ)) = some b' ∧ R a b' := .inl ⟨rfl, rfl⟩

theorem means_refines {h : On γ} {m : Meaning γ} (H : Means h m) : Refines StrRefines h.str m ∧ Refines RdRefines h.reader m ∧ Refines CordRefines h.cord m := by
  induction H with
  | optionalVarint =>
    simp only [On.str, On.reader, On.cord]
    exact ⟨⟨fun _ => rfl, fun _ => rfl, fun _ => rfl, fun _ => rfl, fun _ => rfl, none_len⟩,
      ⟨fun _ => rfl, fun _ => rfl, fun _ => rfl, fun _ => rfl, fun _ => rfl, none_len⟩, ⟨fun _ => rfl, fun _ => rfl, fun _ => rfl, fun _ => rfl, fun _ => rfl, none_len⟩⟩
  | repeatedVarint hb =>
    simp only [On.str, On.reader, On.cord]
    have hb : _ = _ := funext fun bs => funext fun c => packedVarints_unique (hb bs c)
    subst hb
    exact ⟨⟨fun _ => rfl, fun _ => rfl, fun _ => rfl, fun _ => rfl, fun _ => rfl, only_len (packedVarintString_spec _)⟩,
      ⟨fun _ => rfl, fun _ => rfl, fun _ => rfl, fun _ => rfl, fun _ => rfl, only_len (packedVarintReader_spec _)⟩,
      ⟨fun _ => rfl, fun _ => rfl, fun _ => rfl, fun _ => rfl, fun _ => rfl, only_len (packedVarintCord_spec _)⟩⟩
  | optionalFixed32 =>
    simp only [On.str, On.reader, On.cord]
    exact ⟨⟨fun _ => rfl, fun _ => rfl, fun _ => rfl, fun _ => rfl, fun _ => rfl, none_len⟩,
      ⟨fun _ => rfl, fun _ => rfl, fun _ => rfl, fun _ => rfl, fun _ => rfl, none_len⟩, ⟨fun _ => rfl, fun _ => rfl, fun _ => rfl, fun _ => rfl, fun _ => rfl, none_len⟩⟩
  | repeatedFixed32 hb =>
    simp only [On.str, On.reader, On.cord]
    have hb : _ = _ := funext fun bs => funext fun c => packedFixeds_unique (by omega) (hb bs c)
    subst hb
    exact ⟨⟨fun _ => rfl, fun _ => rfl, fun _ => rfl, fun _ => rfl, fun _ => rfl, only_len (packedFixedStringChecked_spec (by omega) _)⟩,
      ⟨fun _ => rfl, fun _ => rfl, fun _ => rfl, fun _ => rfl, fun _ => rfl, only_len (packedFixedReader_spec (by omega) _)⟩,
      ⟨fun _ => rfl, fun _ => rfl, fun _ => rfl, fun _ => rfl, fun _ => rfl, only_len (packedFixedCord_spec (by omega) _)⟩⟩
  | optionalFixed64 =>
    simp only [On.str, On.reader, On.cord]
    exact ⟨⟨fun _ => rfl, fun _ => rfl, fun _ => rfl, fun _ => rfl, fun _ => rfl, none_len⟩,
      ⟨fun _ => rfl, fun _ => rfl, fun _ => rfl, fun _ => rfl, fun _ => rfl, none_len⟩, ⟨fun _ => rfl, fun _ => rfl, fun _ => rfl, fun _ => rfl, fun _ => rfl, none_len⟩⟩
  | repeatedFixed64 hb =>
    simp only [On.str, On.reader, On.cord]
    have hb : _ = _ := funext fun bs => funext fun c => packedFixeds_unique (by omega) (hb bs c)
    subst hb
    exact ⟨⟨fun _ => rfl, fun _ => rfl, fun _ => rfl, fun _ => rfl, fun _ => rfl, only_len (packedFixedStringChecked_spec (by omega) _)⟩,
      ⟨fun _ => rfl, fun _ => rfl, fun _ => rfl, fun _ => rfl, fun _ => rfl, only_len (packedFixedReader_spec (by omega) _)⟩,
      ⟨fun _ => rfl, fun _ => rfl, fun _ => rfl, fun _ => rfl, fun _ => rfl, only_len (packedFixedCord_spec (by omega) _)⟩⟩
  | string =>
    simp only [On.str, On.reader, On.cord]
    exact ⟨⟨fun _ => rfl, fun _ => rfl, fun _ => rfl, fun _ => rfl, fun _ => rfl, only_len (fun _ _ => rfl)⟩,
      ⟨fun _ => rfl, fun _ => rfl, fun _ => rfl, fun _ => rfl, fun _ => rfl, only_len (stringReader_spec _)⟩,
      ⟨fun _ => rfl, fun _ => rfl, fun _ => rfl, fun _ => rfl, fun _ => rfl, only_len (stringCord_spec _)⟩⟩
  | message hl _ hb ih =>
    simp only [On.str, On.reader, On.cord]
    have hb : _ = _ := funext fun bs => funext fun c => (readResult_iff _ bs c _).mp (hb bs c)
    subst hb
    rw [readers_eq, cords_eq, strs_eq]
    exact ⟨⟨fun _ => rfl, fun _ => rfl, fun _ => rfl, fun _ => rfl, fun _ => rfl,
        only_len (fun bs c => stringMessage_spec (refinesAll_of _ _ hl (fun i h1 h2 => (ih i h1 h2).1)) c bs)⟩,
      ⟨fun _ => rfl, fun _ => rfl, fun _ => rfl, fun _ => rfl, fun _ => rfl,
        only_len (messageReader_spec (refinesAll_of _ _ hl (fun i h1 h2 => (ih i h1 h2).2.1)))⟩,
      ⟨fun _ => rfl, fun _ => rfl, fun _ => rfl, fun _ => rfl, fun _ => rfl,
        only_len (messageCord_spec (refinesAll_of _ _ hl (fun i h1 h2 => (ih i h1 h2).2.2)))⟩⟩
  | beforeGroup =>
    simp only [On.str, On.reader, On.cord]
    exact ⟨⟨fun _ => rfl, fun _ => rfl, fun _ => rfl, fun _ => rfl, fun _ => rfl, none_len⟩,
      ⟨fun _ => rfl, fun _ => rfl, fun _ => rfl, fun _ => rfl, fun _ => rfl, none_len⟩, ⟨fun _ => rfl, fun _ => rfl, fun _ => rfl, fun _ => rfl, fun _ => rfl, none_len⟩⟩
  | afterGroup =>
    simp only [On.str, On.reader, On.cord]
    exact ⟨⟨fun _ => rfl, fun _ => rfl, fun _ => rfl, fun _ => rfl, fun _ => rfl, none_len⟩,
      ⟨fun _ => rfl, fun _ => rfl, fun _ => rfl, fun _ => rfl, fun _ => rfl, none_len⟩, ⟨fun _ => rfl, fun _ => rfl, fun _ => rfl, fun _ => rfl, fun _ => rfl, none_len⟩⟩
  | dynamic =>
    simp only [On.str, On.reader, On.cord]
    exact ⟨⟨fun _ => rfl, fun _ => rfl, fun _ => rfl, fun _ => rfl, fun _ => rfl, dyn_len (fun _ _ _ => rfl)⟩,
      ⟨fun _ => rfl, fun _ => rfl, fun _ => rfl, fun _ => rfl, fun _ => rfl, dyn_len stringReader_spec⟩,
      ⟨fun _ => rfl, fun _ => rfl, fun _ => rfl, fun _ => rfl, fun _ => rfl, dyn_len stringCord_spec⟩⟩

theorem MeansAll.str {hs : List (On γ)} {ms : List (Meaning γ)} (H : MeansAll hs ms) : RefinesAll StrRefines (On.strs hs) ms := by
  rw [strs_eq]; exact refinesAll_of _ _ H.1 (fun i h1 h2 => (means_refines (H.2 i h1 h2)).1)

theorem MeansAll.reader {hs : List (On γ)} {ms : List (Meaning γ)} (H : MeansAll hs ms) : RefinesAll RdRefines (On.readers hs) ms := by
  rw [readers_eq]; exact refinesAll_of _ _ H.1 (fun i h1 h2 => (means_refines (H.2 i h1 h2)).2.1)

theorem MeansAll.cord {hs : List (On γ)} {ms : List (Meaning γ)} (H : MeansAll hs ms) : RefinesAll CordRefines (On.cords hs) ms := by
  rw [cords_eq]; exact refinesAll_of _ _ H.1 (fun i h1 h2 => (means_refines (H.2 i h1 h2)).2.2)

mutual
theorem exists_meaning : ∀ (h : On γ), ∃ m, Means h m
  | .optionalVarint .. => ⟨_, .optionalVarint⟩
  | .repeatedVarint .. => ⟨_, .repeatedVarint (fun bs c => packedVarints_spec _ bs c)⟩
  | .optionalFixed32 .. => ⟨_, .optionalFixed32⟩
  | .repeatedFixed32 .. => ⟨_, .repeatedFixed32 (fun bs c => packedFixeds_spec 4 _ bs c)⟩
  | .optionalFixed64 .. => ⟨_, .optionalFixed64⟩
  | .repeatedFixed64 .. => ⟨_, .repeatedFixed64 (fun bs c => packedFixeds_spec 8 _ bs c)⟩
  | .string .. => ⟨_, .string⟩
  | .message _ hs =>
    have ⟨_, h1, h2⟩ := exists_meanings hs
    ⟨_, .message h1 h2 (fun bs c => message_spec _ bs c)⟩
  | .beforeGroup .. => ⟨_, .beforeGroup⟩
  | .afterGroup .. => ⟨_, .afterGroup⟩
  | .dynamic _ => ⟨_, .dynamic⟩
theorem exists_meanings : ∀ (hs : List (On γ)), ∃ ms, MeansAll hs ms
  | [] => ⟨[], rfl, fun i h => absurd h (by simp)⟩
  | h :: hs =>
    have ⟨m, hm⟩ := exists_meaning h
    have ⟨ms, h1, h2⟩ := exists_meanings hs
    ⟨m :: ms, by simp [h1], fun i hi hi' => by
      cases i with
      | zero => exact hm
      | succ i => exact h2 i (by simpa using hi) (by simpa using hi')⟩
end

/-! ## Theorems -/

/-- **C46.** Every list of field handlers has a meaning. -/
theorem C46_meanings (hs : List (On γ)) : ∃ ms, MeansAll hs ms := exists_meanings hs

/-- **C46.** `ReadMessage()` from a string: for any bytes, each field is handled as the field handlers mean, in sequence, until an action fails or the data are invalid;
nothing outside the string is read, and reading terminates. -/
theorem C46_string {hs : List (On γ)} {ms : List (Meaning γ)} (H : MeansAll hs ms) (src : Bytes) (c : γ) :
    ∃ r, stringMessage (On.strs hs) c src = some r ∧ ReadResult ms src c r :=
  ⟨_, stringMessage_spec H.str c src, message_spec ms src c⟩

/-- **C46.** `ReadMessage()` from a `Cord` or `CordIteratorSpan`, divided into chunks in any way: the same result, and if it succeeds, then the iterator is moved past the
message. -/
theorem C46_cord {hs : List (On γ)} {ms : List (Meaning γ)} (H : MeansAll hs ms) (src : List Bytes) (hc : ∀ chunk ∈ src, chunk ≠ []) (n : Nat)
    (hn : n ≤ src.flatten.length) (c : γ) :
    ∃ r src', cordMessage (On.cords hs) n c src = some (r, src') ∧ ReadResult ms (src.flatten.take n) c r ∧ (r.1 = true → src'.flatten = src.flatten.drop n) := by
  obtain ⟨r, s', e1, e2, e3⟩ := cordMessage_spec H.cord n c src hc hn
  exact ⟨r, s', e1, e2 ▸ message_spec ms _ c, fun h => (e3 h).1⟩

/-- **C46.** `ReadMessage()` from a `Reader`, with any division of the data into buffers, which reads all data until the source ends or fails. The result is the same, except
that:
* it is a failure if the source fails, unless the source is not owned and there are no handlers for length-delimited fields or the source is a `LimitingReader`;
* if it fails because a length-delimited field is truncated and the size of the source is not known, then the action might have been called for a part of the field. -/
theorem C46_reader {hs : List (On γ)} {ms : List (Meaning γ)} (H : MeansAll hs ms) (owning : Bool) (own : Option (Option Nat)) (size : Option Nat) (s : Rd)
    (hwf : s.Wf) (hok : s.ok = true) (c : γ) :
    ∃ r s' spec, readMessage (On.readers hs) owning own size c s = some (r, s') ∧ ReadResult ms s.rest c spec ∧
      (r.1 = true ↔ spec.1 = true ∧ (s.fails = true → owning = false ∧ (supports (·.len) (On.readers hs) = true → own ≠ none))) ∧
      (r.1 = true → r.2 = spec.2 ∧ s'.rest = [] ∧ s'.ok = (!s.fails)) ∧
      (supports (·.len) (On.readers hs) = false ∨ own = some (some 0) ∨ (own = none ∧ size = some s.rest.length) → r.2 = spec.2) := by
  obtain ⟨r, s', h1, h2, h3, h4⟩ := readMessage_spec H.reader owning own size c s hwf hok
  exact ⟨r, s', _, h1, message_spec ms _ c, h2, h3, h4⟩

/-- **C46.** The result is determined by the data. -/
theorem C46_unique {ms : List (Meaning γ)} {bs : Bytes} {c : γ} {r r' : Bool × γ} (h : ReadResult ms bs c r) (h' : ReadResult ms bs c r') : r = r' :=
  ((readResult_iff ms bs c r).mp h).trans ((readResult_iff ms bs c r').mp h').symm

/-- **C46.** A message which was written (C45) consists of the fields which were written: reading it handles exactly these fields in sequence. -/
theorem C46_round_trip (fs : List Field) (hw : AllWhole fs) (hv : AllValid fs) (ht : ¬AnyTooLong fs) :
    Parses (wires fs) (itemsAll fs) [] ∧
    ∀ (ms : List (Meaning γ)) (c : γ) (r : Bool × γ), ReadResult ms (wires fs) c r ↔ r = Meaning.handleAll ms (itemsAll fs) c := by
  have hp := parse_fields fs [] hw hv ht
  rw [List.append_nil] at hp
  have hr : ∀ (ms : List (Meaning γ)) (c : γ), ReadResult ms (wires fs) c (Meaning.handleAll ms (itemsAll fs) c) := fun ms c =>
    ⟨_, _, hp, not_begins_nil, rfl, by simp⟩
  exact ⟨hp, fun ms c r => ⟨fun h => C46_unique h (hr ms c), fun h => h ▸ hr ms c⟩⟩

/-- **C46.** Elements of a packed repeated field which was written (C45) are read in sequence. -/
theorem C46_packed_round_trip (vs : List Value) (k : Kind) (hk : ∀ v ∈ vs, v.kind = some k) (a : Nat → γ → Bool × γ) (c : γ) (r : Bool × γ) :
    PackedVarintResult a (wires (vs.map .element)) c r ↔ r = feed a (vs.map Value.repr) c := by
  have hr : PackedVarintResult a (wires (vs.map .element)) c (feed a (vs.map Value.repr) c) :=
    ⟨_, _, varints_elements vs k hk, fun p r v h => by
      obtain ⟨rfl, rfl⟩ := List.append_eq_nil_iff.mp h.symm
      intro hv
      have := hv.ne_nil
      simp at this, rfl, by simp⟩
  exact ⟨fun h => (packedVarints_unique h).trans (packedVarints_unique hr).symm, fun h => h ▸ hr⟩

/-- **C46.** The handler of the right kind decodes the value which was written. -/
theorem C46_decode (f : Nat) (v : Value) (k : Kind) (hk : v.kind = some k) (he : ∀ x, v = .enum x → -2 ^ 31 ≤ x ∧ x < 2 ^ 31) :
    ∃ repr, items (.scalar f v) = [.varint f repr] ∧ decodeVarint k repr = v :=
  ⟨_, item_varint f v k hk, decode_repr v k hk he⟩

end

/-! ## Examples -/

/-- An action which records a value, and fails for values greater than 1000. -/
def exAct (tag n : Nat) (c : List Nat) : Bool × List Nat := (decide (n ≤ 1000), c ++ [tag, n])

/-- An action for a number. -/
def exVal (tag : Nat) : Value → List Nat → Bool × List Nat
  | .uint32 v, c => exAct tag v.toNat c
  | .sint32 v, c => exAct tag v.toInt.natAbs c
  | .int64 v, c => exAct tag v.toNat c
  | _, c => (false, c)

/-- Field handlers for `exMessage`. -/
def exHandlers : List (On (List Nat)) :=
  [.optionalVarint 1 .uint32 (exVal 1), .string 2 (fun bs => exAct 2 bs.length), .message 3 [.optionalVarint 1 .sint32 (exVal 31)],
   .repeatedVarint 5 .int64 (exVal 5), .beforeGroup 6 (exAct 6 0), .optionalFixed32 7 (exAct 7), .afterGroup 6 (exAct 6 1)]

/-- What they mean. -/
def exMeanings : List (Meaning (List Nat)) :=
  [{ varint := fun g => if g = 1 then some (fun repr => exVal 1 (decodeVarint .uint32 repr)) else none },
   { len := fun g => if g = 2 then some (fun bs => exAct 2 bs.length) else none },
   { len := fun g => if g = 3 then some (message [{ varint := fun g => if g = 1 then some (fun repr => exVal 31 (decodeVarint .sint32 repr)) else none }]) else none },
   { varint := fun g => if g = 5 then some (fun repr => exVal 5 (decodeVarint .int64 repr)) else none,
     len := fun g => if g = 5 then some (packedVarints (fun repr => exVal 5 (decodeVarint .int64 repr))) else none },
   { start := fun g => if g = 6 then some (exAct 6 0) else none },
   { fixed32 := fun g => if g = 7 then some (exAct 7) else none },
   { stop := fun g => if g = 6 then some (exAct 6 1) else none }]

theorem exMeans : MeansAll exHandlers exMeanings := by
  refine ⟨rfl, fun i h1 h2 => ?_⟩
  match i, h1, h2 with
  | 0, _, _ => exact .optionalVarint
  | 1, _, _ => exact .string
  | 2, _, _ =>
    refine .message (ms := [{ varint := fun g => if g = 1 then some (fun repr => exVal 31 (decodeVarint .sint32 repr)) else none }]) rfl (fun i h1 h2 => ?_)
      (fun bs c => message_spec _ bs c)
    match i, h1, h2 with
    | 0, _, _ => exact .optionalVarint
  | 3, _, _ => exact .repeatedVarint (fun bs c => packedVarints_spec _ bs c)
  | 4, _, _ => exact .beforeGroup
  | 5, _, _ => exact .optionalFixed32
  | 6, _, _ => exact .afterGroup

/-- All fields of `exMessage` are handled. -/
theorem exMessage_read : message exMeanings [8, 172, 2, 18, 2, 104, 105, 26, 2, 8, 1, 42, 3, 1, 150, 1, 51, 61, 2, 1, 0, 0, 52] [] =
    (true, [1, 300, 2, 2, 31, 1, 5, 1, 5, 150, 6, 0, 7, 258, 6, 1]) := by decide +kernel

example : stringMessage (On.strs exHandlers) [] (wires exMessage) = some (true, [1, 300, 2, 2, 31, 1, 5, 1, 5, 150, 6, 0, 7, 258, 6, 1]) := by
  rw [stringMessage_spec exMeans.str, exMessage_wires, exMessage_read]

example : AllWhole exMessage := by simp [exMessage, AllWhole, Whole]

/-- From a `Cord` with small chunks. -/
example : ∃ src', cordMessage (On.cords exHandlers) 23 [] [[8, 172], [2, 18, 2, 104], [105, 26, 2, 8, 1, 42, 3, 1], [150, 1, 51, 61, 2, 1, 0, 0, 52], [99]] =
    some ((true, [1, 300, 2, 2, 31, 1, 5, 1, 5, 150, 6, 0, 7, 258, 6, 1]), src') := by
  obtain ⟨r, s', e1, e2, -⟩ := cordMessage_spec exMeans.cord 23 [] [[8, 172], [2, 18, 2, 104], [105, 26, 2, 8, 1, 42, 3, 1], [150, 1, 51, 61, 2, 1, 0, 0, 52], [99]]
    (by unfold Chunks; decide +kernel) (by decide +kernel)
  refine ⟨s', e1.trans ?_⟩
  rw [e2]
  have : ([[8, 172], [2, 18, 2, 104], [105, 26, 2, 8, 1, 42, 3, 1], [150, 1, 51, 61, 2, 1, 0, 0, 52], [99]] : List Bytes).flatten.take 23 =
    [8, 172, 2, 18, 2, 104, 105, 26, 2, 8, 1, 42, 3, 1, 150, 1, 51, 61, 2, 1, 0, 0, 52] := by decide +kernel
  rw [this, exMessage_read]

/-- From an owned `Reader`, two bytes at a time. -/
example : ∃ s', readMessage (On.readers exHandlers) true none none [] (Rd.ofBytes (wires exMessage) false (fun _ => 2)) =
    some ((true, [1, 300, 2, 2, 31, 1, 5, 1, 5, 150, 6, 0, 7, 258, 6, 1]), s') := by
  obtain ⟨r, s', e1, e2, e3, -⟩ := readMessage_spec exMeans.reader true none none [] (Rd.ofBytes (wires exMessage) false (fun _ => 2)) Rd.wf_ofBytes rfl
  have hm : message exMeanings (Rd.ofBytes (wires exMessage) false (fun _ => 2)).rest [] = _ := (congrArg (message exMeanings · []) exMessage_wires).trans exMessage_read
  rw [hm] at e2 e3
  have hr := e2.mpr ⟨rfl, fun h => (Bool.false_ne_true h).elim⟩
  refine ⟨s', e1.trans ?_⟩
  rw [show r = (true, [1, 300, 2, 2, 31, 1, 5, 1, 5, 150, 6, 0, 7, 258, 6, 1]) from Prod.ext hr (e3 hr).1]

/-- An action fails: the fields before it are handled. -/
example : message exMeanings [8, 1, 8, 233, 7, 8, 3] [] = (false, [1, 1, 1, 1001]) := by decide +kernel

/-- Truncated data. -/
example : message exMeanings [8, 1, 18, 5, 1, 2] [] = (false, [1, 1]) := by decide +kernel

end Riegeli.Props
