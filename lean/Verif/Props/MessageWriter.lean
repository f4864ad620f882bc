import Verif.MessageWriterProofs
import Verif.Props.Writers
/-!
# C45: message writers write the wire format

The specification is `wires` in `Verif/MessageSpec.lean`: the serialization of a list of fields, with `AnyTooLong` (some length-delimited field has 2 GiB or more) and
`AllValid` (field numbers are valid). The calls which write the fields are `Smw.fields` and `Smb.fields`.
-/
namespace Riegeli.Props
open Riegeli Wtr Msg

/-- **C45.** `SerializedMessageWriter` over any `Writer`: if all calls succeed, then exactly the serialization is written, and no length-delimited field is too long. If a call
fails, then some length-delimited field is too long, or the `Writer` failed. -/
theorem C45_forward {σ : Type} {W : WriterOps σ} {view dst : σ → Bytes} {Inv : σ → Prop} (L : W.Lawful view dst Inv) (e : Env)
    (hcut : ∀ bs, (e.cut bs).flatten = bs) (fs : List Field) (hv : AllValid fs) (dest : σ) (h : Inv dest) :
    let r := Smw.fields W e fs ⟨dest, []⟩
    (r.1 = true → ¬AnyTooLong fs ∧ r.2.subs = [] ∧ view r.2.dest = overlay (view dest) (W.pos dest) (wires fs) ∧
      W.pos r.2.dest = W.pos dest + (wires fs).length ∧ W.ok r.2.dest = W.ok dest ∧
      (W.pos dest = (view dest).length → view r.2.dest = view dest ++ wires fs)) ∧
    (r.1 = false → AnyTooLong fs ∨ W.ok r.2.dest = false) := by
  intro r
  obtain ⟨h1, h2⟩ := Smw.fields_post L (e := e) hcut fs (s := ⟨dest, []⟩) h hv
  refine ⟨fun t => ?_, h2⟩
  obtain ⟨a, -, b1, b2, b3, b4⟩ := h1 t
  refine ⟨a, b1, b2, b3, b4, fun hp => ?_⟩
  show view r.2.dest = _
  rw [b2, show W.pos (⟨dest, []⟩ : Smw σ).dest = (view dest).length from hp, overlay_end]

/-- **C45.** `SerializedMessageBackwardWriter` over any `BackwardWriter`, with the calls in the opposite order: the same serialization is prepended. -/
theorem C45_backward {σ : Type} {B : BackOps σ} {view : σ → Bytes} {Inv : σ → Prop} (L : B.Lawful view Inv) (e : Env)
    (fs : List Field) (hv : AllValid fs) (dest : σ) (h : Inv dest) :
    let r := Smb.fields B e fs ⟨dest, []⟩
    (r.1 = true → ¬AnyTooLong fs ∧ r.2.subs = [] ∧ view r.2.dest = wires fs ++ view dest ∧
      B.pos r.2.dest = B.pos dest + (wires fs).length ∧ B.ok r.2.dest = B.ok dest) ∧
    (r.1 = false → AnyTooLong fs ∨ B.ok r.2.dest = false) := by
  intro r
  obtain ⟨h1, h2⟩ := Smb.fields_post L (e := e) fs (s := ⟨dest, []⟩) h hv
  refine ⟨fun t => ?_, h2⟩
  obtain ⟨a, -, b1, b2, b3, b4⟩ := h1 t
  exact ⟨a, b1, b2, b3, b4⟩

/-- **C45.** The lengths computed by `LengthOf...()` are the lengths of what is written, so passing them to `WriteLengthUnchecked()` is right. -/
theorem C45_lengths (fs : List Field) (hv : AllValid fs) (ht : ¬AnyTooLong fs) : lengthOfAll fs = (wires fs).length := lengthOfAll_eq fs hv ht

/-- **C45.** Writing an element of a packed repeated field to an array: the right bytes, as many as `LengthOfPacked...()` says. -/
theorem C45_packed_array (v : Value) : packedBytes v = v.payload ∧ (packedBytes v).length = lengthOfPacked v :=
  ⟨packedBytes_eq v, by rw [lengthOfPacked_eq, packedBytes_eq]⟩

/-- **C45.** A message written by a `SerializedMessageWriter` to an `FdWriter` at the end of a file: if the calls and `Close()` succeed, then the file has its initial
contents followed by the serialization. -/
theorem C45_to_file (os : WOs) (bo : Rdr.BufOpts) (junk : Nat → Nat → UInt8) (po : Rdr.FdPos) (opened : Bool) (content : Bytes) (pos : Nat)
    (hs : FdW.isStream os po = false) (he : FdW.startPos os content pos po = content.length) (e : Env) (hcut : ∀ bs, (e.cut bs).flatten = bs)
    (fs : List Field) (hv : AllValid fs) :
    let r := Smw.fields (FdW.ops os bo junk) e fs ⟨FdW.init os po opened content pos, []⟩
    r.1 = true → (r.2.dest.done (FdW.dst os bo junk)).ok = true → (r.2.dest.done (FdW.dst os bo junk)).dst.content = content ++ wires fs := by
  intro r hr hc
  obtain ⟨h1, h2, h3, h4, h5⟩ := FdW.init_spec os bo junk po opened content pos
  obtain ⟨a1, a2⟩ := C45_forward (FdW.lawful os _ bo junk) e hcut fs hv (FdW.init os po opened content pos) h1
  obtain ⟨-, b1, b2, b3, b4, b5⟩ := a1 hr
  have hinv := ((Smw.fields_post (FdW.lawful os ⟨FdW.isStream os po, FdW.startPos os content pos po, content, pos⟩ bo junk) (e := e) hcut fs
    (s := ⟨FdW.init os po opened content pos, []⟩) h1 hv).1 hr).2.1
  obtain ⟨g1, g2, g3⟩ := (BW.done_spec (FdW.dst_lawful os _ bo junk) hinv).2.1 hc
  have hd : ∀ d : FdW, FdCfg.dest ⟨FdW.isStream os po, FdW.startPos os content pos po, content, pos⟩ d = d.content := fun d => by
    unfold FdCfg.dest; dsimp only; rw [hs]; rfl
  have hok : (FdW.init os po opened content pos).phys.ok = true := by
    have : (FdW.ops os bo junk).ok r.2.dest = true := g1
    rw [b4] at this; exact this
  have hvw := h2.view (dest := FdCfg.dest ⟨FdW.isStream os po, FdW.startPos os content pos po, content, pos⟩)
  have hp : (FdW.ops os bo junk).pos (FdW.init os po opened content pos) = content.length := (h2.pos).trans ((h5 hok).trans he)
  rw [hd, h3] at hvw
  have := b5 (by rw [hp, hvw])
  rw [hvw] at this
  rw [hd] at g2
  exact g2.trans this

/-! ## Examples -/

/-- `{1: 300, 2: "hi", 3: {1: -1 (sint32)}, 4: {} (omitted), 5: [1, 150] (packed), group 6 { 7: fixed32 }}` -/
def exMessage : List Field :=
  [.scalar 1 (.uint32 300), .str 2 [104, 105], .sub .opened 3 [.scalar 1 (.sint32 (-1))], .sub .optional 4 [],
   .sub .pledged 5 [.element (.int32 1), .element (.int64 150)], .group 6 [.scalar 7 (.fixed32 258)]]

theorem varint_1 {n : Nat} (h : n < 128) : varint n = [UInt8.ofNat n] := by unfold varint; rw [if_pos h]
theorem varint_2 {n : Nat} (h : ¬n < 128) (h2 : n / 128 < 128) : varint n = [UInt8.ofNat (n % 128 + 128), UInt8.ofNat (n / 128)] := by
  rw [varint, if_neg h, varint_1 h2]

theorem exMessage_wires : wires exMessage =
    [8, 172, 2, 18, 2, 104, 105, 26, 2, 8, 1, 42, 3, 1, 150, 1, 51, 61, 2, 1, 0, 0, 52] := by
  simp [exMessage, wires, wire, key, Value.wireType, Value.payload, varint_1, varint_2, little, zigzag, BitVec.toInt, List.range, List.range.loop]

example : AllValid exMessage ∧ ¬AnyTooLong exMessage := by
  simp [exMessage, AllValid, Valid, AnyTooLong, TooLong, wires, wire, key, Value.wireType, Value.payload, varint_1, varint_2, zigzag, BitVec.toInt]

/-- A `BackwardWriter` which fails when it has more than `limit` bytes. -/
def exBack (limit : Nat) : BackOps (Bytes × Bool) where
  pos s := s.1.length
  avail s := if s.2 then limit - s.1.length else 0
  ok s := s.2
  put bs s := (bs ++ s.1, s.2)
  push n s := if s.2 = true ∧ n ≤ limit - s.1.length then (true, s) else (decide (n = 0), (s.1, decide (n = 0) && s.2))
  write bs s := if s.2 = true ∧ bs.length ≤ limit - s.1.length then (true, (bs ++ s.1, s.2)) else (false, (s.1, false))

theorem exBack_lawful (limit : Nat) : (exBack limit).Lawful (·.1) (fun _ => True) where
  put bs s _ _ := ⟨trivial, rfl, by simp [exBack]; omega, rfl⟩
  push n s _ := by
    obtain ⟨c, ok⟩ := s
    refine ⟨trivial, ?_⟩
    simp only [exBack]
    split
    · rename_i h
      exact ⟨fun _ => ⟨by rw [if_pos h.1]; exact h.2, rfl, rfl, rfl⟩, fun h => (Bool.false_ne_true h.symm).elim⟩
    · refine ⟨fun h => ?_, fun h => ?_⟩
      · have : n = 0 := of_decide_eq_true h
        subst this
        simp
      · have h' : ¬n = 0 := of_decide_eq_false h
        simp [h']
  write bs s _ := by
    obtain ⟨c, ok⟩ := s
    refine ⟨trivial, ?_⟩
    simp only [exBack]
    split
    · exact ⟨fun _ => ⟨rfl, by simp; omega, rfl⟩, fun h => (Bool.false_ne_true h.symm).elim⟩
    · exact ⟨fun h => (Bool.false_ne_true h).elim, fun _ => rfl⟩

/-- An environment which divides each `Cord` after its first byte, and knows small numbers. -/
def exEnv : Env := ⟨fun n => n < 64, fun bs => [bs.take 1, bs.drop 1], fun bs => bs.length % 3⟩

example : ∀ bs, (exEnv.cut bs).flatten = bs := fun bs => by
  show (bs.take 1 ++ (bs.drop 1 ++ [])) = bs
  rw [List.append_nil, List.take_append_drop]

/-- The calls succeed. -/
example :
    let r := Smw.fields (FdW.ops exWos ⟨4, 16⟩ fun _ _ => 255) exEnv exMessage ⟨FdW.init exWos .current true [] 0, []⟩
    FdW.isStream exWos .current = false ∧ FdW.startPos exWos [] 0 .current = 0 ∧ r.1 = true ∧
    (r.2.dest.done (FdW.dst exWos ⟨4, 16⟩ fun _ _ => 255)).ok = true := by decide +kernel

example : (Smb.fields (exBack 100) exEnv exMessage ⟨([7], true), []⟩).1 = true := by decide +kernel

example : (Smb.fields (exBack 10) exEnv exMessage ⟨([7], true), []⟩).1 = false := by decide +kernel

end Riegeli.Props
