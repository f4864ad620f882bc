import Verif.TextWriterProofs
import Verif.Props.LimitingWriter
/-!
# C53, C54: `TextReader` and `TextWriter`

`toLf` replaces each CR LF with LF, `toCrlf` replaces each LF with CR LF; these are the meanings of `ReadNewline::kCrLfOrLf` and `WriteNewline::kCrLf`.
The source is any class of readers which meets the contract of `Reader`, the destination is any class of writers which meets the contract of
`Writer`. What operations mean is said by `ROp.Meets` and `WOp.bytes`.
-/
namespace Riegeli.Props
open Riegeli Rdr Wtr

/-- Histories of a `TextReader`: it is created over a source `s`, then public functions are called in any order. -/
inductive TextReach {σ : Type} (R : ReaderOps σ) (tolerates : σ → Bool) (bo : BufOpts) (room : Nat → Nat → Bool) (push : Nat → Nat) (s : σ) :
    BR (TR σ) → Prop where
  | init (z : Sizer) : TextReach R tolerates bo room push s (TR.init R s z)
  | op {b} (op : ROp) : TextReach R tolerates bo room push s b →
      TextReach R tolerates bo room push s (op.run (BR.ops (TR.cls R tolerates bo room push)) b)
  | sync {b} : TextReach R tolerates bo room push s b →
      TextReach R tolerates bo room push s (b.syncImpl (TR.cls R tolerates bo room push)).2
  | setReadAllHint {b} (hint : Bool) : TextReach R tolerates bo room push s b →
      TextReach R tolerates bo room push s (b.setReadAllHint hint)

section
variable {σ : Type} {R : ReaderOps σ} {D : Bytes} {E : Prop} {Inv : σ → Prop} {tolerates : σ → Bool} {bo : BufOpts} {room : Nat → Nat → Bool}
  {push : Nat → Nat} {s : σ} {b : BR (TR σ)}

theorem toLf_length (a : Bytes) : (toLf a).length ≤ a.length := by
  fun_induction toLf a with
  | case1 => exact Nat.le_refl _
  | case2 => exact Nat.le_refl _
  | case3 a b r h ih => simp only [List.length_cons]; omega
  | case4 a b r h ih => simp only [List.length_cons] at ih ⊢; omega

theorem TextReach.binv (L : R.Lawful D E Inv) (hst : Steady R Inv) (hs : Inv s) (ho : R.ok s = true) (hD : D.length < 2 ^ 64 - 1)
    (h : TextReach R tolerates bo room push s b) : BInv (toLf (D.drop (R.cursor s))) (TR.TInv R D Inv (R.cursor s)) b := by
  have hD' : (toLf (D.drop (R.cursor s))).length < 2 ^ 64 - 1 := by
    have := toLf_length (D.drop (R.cursor s))
    rw [List.length_drop] at this; omega
  have TL := TR.lawful L hst (R.cursor s) tolerates bo room push
  induction h with
  | init z => exact TR.init_spec L z hs ho
  | op op _ ih => exact (op.meets (BR.lawful TL) hD' ih).1
  | sync _ ih => exact (BR.syncImpl_spec TL ih).1
  | setReadAllHint _ _ ih => exact ⟨ih.phys, ih.idx, ih.len, ih.data⟩

/-- **C53.** At any point of any history of a `TextReader`, every function does what it should for a reader of the data of the source, from its
position when the `TextReader` was created, with each CR LF replaced with LF: however the source divides its data into buffers (also
between CR and LF), whatever the buffer sizes, and also after seeking back. A failed reader stays failed. -/
theorem C53_reads_the_text (L : R.Lawful D E Inv) (hst : Steady R Inv) (hs : Inv s) (ho : R.ok s = true) (hD : D.length < 2 ^ 64 - 1)
    (h : TextReach R tolerates bo room push s b) (op : ROp) :
    op.Meets (BR.ops (TR.cls R tolerates bo room push)) (toLf (D.drop (R.cursor s))) E b ∧
    (b.phys.ok = false → (op.run (BR.ops (TR.cls R tolerates bo room push)) b).phys.ok = false) := by
  have hD' : (toLf (D.drop (R.cursor s))).length < 2 ^ 64 - 1 := by
    have := toLf_length (D.drop (R.cursor s))
    rw [List.length_drop] at this; omega
  exact (op.meets (BR.lawful (TR.lawful L hst (R.cursor s) tolerates bo room push)) hD' (h.binv L hst hs ho hD)).2

/-- **C53.** `Sync()` does not move the reader, and keeps what is to be read. -/
theorem C53_sync (L : R.Lawful D E Inv) (hst : Steady R Inv) (hs : Inv s) (ho : R.ok s = true) (hD : D.length < 2 ^ 64 - 1)
    (h : TextReach R tolerates bo room push s b) :
    ((b.syncImpl (TR.cls R tolerates bo room push)).1 = true → (b.syncImpl (TR.cls R tolerates bo room push)).2.pos = b.pos) ∧
    ((b.syncImpl (TR.cls R tolerates bo room push)).1 = false → (b.syncImpl (TR.cls R tolerates bo room push)).2.phys.ok = false) := by
  obtain ⟨-, h2, h3, -⟩ := BR.syncImpl_spec (TR.lawful L hst (R.cursor s) tolerates bo room push) (h.binv L hst hs ho hD)
  exact ⟨fun hb => (h2 hb).1, h3⟩

/-- **C53.** Data without CR LF are read unchanged. -/
theorem C53_other_data_unchanged (a : Bytes) (h : ∀ i, ¬ (a[i]? = some crByte ∧ a[i + 1]? = some lfByte)) : toLf a = a := by
  fun_induction toLf a with
  | case1 => rfl
  | case2 => rfl
  | case3 a b r hc ih => exact absurd ⟨by rw [hc.1]; rfl, by rw [hc.2]; rfl⟩ (h 0)
  | case4 a b r hc ih => rw [ih fun i => h (i + 1)]

/-- **C53.** What is read has no CR LF coming from a CR LF: it is the data in which each LF lost the CR before it, if any, and nothing else changed. -/
theorem C53_pieces (a b : Bytes) (h : ¬ ∃ x y, a = x ++ [crByte] ∧ b = lfByte :: y) : toLf (a ++ b) = toLf a ++ toLf b := by
  fun_induction toLf a with
  | case1 => rfl
  | case2 x =>
    show toLf (x :: b) = x :: toLf b
    by_cases hx : x = crByte
    · subst hx
      cases b with
      | nil => rfl
      | cons y b => exact toLf_cr (fun hy => h ⟨[], b, rfl, by rw [hy]⟩) _
    · exact toLf_ne hx _
  | case3 x y r hc ih =>
    rw [List.cons_append, List.cons_append, toLf, if_pos hc, ih fun ⟨u, v, h1, h2⟩ => h ⟨x :: y :: u, v, by rw [h1]; rfl, h2⟩]; rfl
  | case4 x y r hc ih =>
    rw [List.cons_append, List.cons_append, toLf, if_neg hc]
    rw [List.cons_append] at ih
    rw [ih fun ⟨u, v, h1, h2⟩ => h ⟨x :: u, v, by rw [h1]; rfl, h2⟩]; rfl

end

section
variable {σ : Type} {W : WriterOps σ} {view dest : σ → Bytes} {Inv : σ → Prop} {d : σ} {owns : Bool} {bo : BufOpts} {junk : Nat → Nat → UInt8}
  {ops : List WOp}

/-- Calls of functions of a `TextWriter` over the destination `d`. -/
def textRun (W : WriterOps σ) (d : σ) (owns : Bool) (bo : BufOpts) (junk : Nat → Nat → UInt8) (ops : List WOp) : List Bool × BW (TW σ) :=
  WOp.runAll (BW.ops (TW.cls W owns bo junk)) ops (newWriter (TW.init W d))

theorem wrote_view (L : W.Lawful view dest Inv) (hi : Inv d) {bs : Bytes} {d' : σ} (h : TW.Wrote W d bs d') (ho : W.ok d' = true) :
    view d' = overlay (view d) (W.pos d) bs ∧ W.pos d' = W.pos d + bs.length := by
  obtain ⟨calls, rfl, h2, rfl⟩ := h
  have e := ((L.runAll hi (WOp.allAllowed calls d h2)).2.1 ho).1
  have gen : ∀ (calls : List WOp) (rs : List Bool) (c : Bytes) (p : Nat), rs.length = calls.length → (∀ op ∈ calls, op.Appends = true) →
      WOp.replay calls rs (c, p) = (overlay c p (calls.flatMap WOp.bytes), p + (calls.flatMap WOp.bytes).length) := by
    intro calls
    induction calls with
    | nil => intro rs c p _ _; simp [WOp.replay, overlay]
    | cons o calls ih =>
      intro rs c p hl hop
      cases rs with
      | nil => cases hl
      | cons r rs =>
        have ho := hop o (List.mem_cons_self ..)
        have e : o.after r (c, p) = (overlay c p o.bytes, p + o.bytes.length) := by
          cases o <;> first | (cases r <;> rfl) | cases ho
        show WOp.replay calls rs (o.after r (c, p)) = _
        rw [e, ih rs _ _ (by simpa using hl) (fun op h => hop op (List.mem_cons_of_mem _ h)), overlay_append, List.flatMap_cons, List.length_append,
          Nat.add_assoc]
  unfold WriterOps.abs at e
  rw [gen calls _ _ _ (WOp.runAll_length calls d) h2] at e
  injection e with e1 e2
  exact ⟨e1, e2⟩

/-- **C54.** A successful `Close()` of a `TextWriter` means that everything which was written, with each LF replaced with CR LF, is written
to the destination at its position; and the position of the writer was the number of bytes before the conversion. -/
theorem C54_close (L : W.Lawful view dest Inv) (hi : Inv d) (hop : ∀ op ∈ ops, op.Appends = true) :
    let r := textRun W d owns bo junk ops
    let c := r.2.done (TW.cls W owns bo junk)
    c.ok = true → W.ok c.dst.dst = true ∧ view c.dst.dst = overlay (view d) (W.pos d) (toCrlf (ops.flatMap WOp.bytes)) ∧
      W.pos c.dst.dst = W.pos d + (toCrlf (ops.flatMap WOp.bytes)).length ∧ r.2.pos = (ops.flatMap WOp.bytes).length := by
  intro r c hc
  have TL := TW.lawful (W := W) L hi owns bo junk
  have hal := WOp.allAllowed (W := BW.ops (TW.cls W owns bo junk)) ops (newWriter (TW.init W d)) hop
  obtain ⟨c1, c2, c3⟩ := C39_close TL (TW.init_spec d) ops hal hc
  have e := WOp.replay_appends ops r.1 [] (WOp.runAll_length ops _) hop
  have e' : WOp.replay ops (textRun W d owns bo junk ops).1 (TW.logOf (TW.init W d).dst, (TW.init W d).startPos) = _ := e
  rw [show WOp.replay ops (WOp.runAll (BW.ops (TW.cls W owns bo junk)) ops (newWriter (TW.init W d))).1
    (TW.logOf (TW.init W d).dst, (TW.init W d).startPos) = _ from e'] at c2 c3
  have hinv := ((BW.lawful TL).runAll (newWriter_inv (TW.init_spec d)) hal).1
  obtain ⟨d1, d2, d3, d4⟩ := BW.done_spec TL hinv
  obtain ⟨a1, a2, a3⟩ := d1.all hc
  obtain ⟨v1, v2⟩ := wrote_view L hi a1 a2
  have hlog : c.dst.log = ops.flatMap WOp.bytes := c2
  refine ⟨a2, by rw [← hlog]; exact v1, by rw [← hlog]; exact v2, ?_⟩
  rw [show r.2.pos = _ from (d2 hc).2.2.symm, c3]; rfl

/-- **C54.** A successful `Flush()` from the process or from the machine means that everything which was written so far, with each LF replaced with
CR LF, is in the contents of the destination. -/
theorem C54_flush (L : W.Lawful view dest Inv) (hi : Inv d) (hop : ∀ op ∈ ops, op.Appends = true) (t : FlushType) (ht : t ≠ .fromObject) :
    let r := textRun W d owns bo junk ops
    let f := r.2.flushImpl (TW.cls W owns bo junk) t
    f.1 = true → dest f.2.phys.dst.dst = overlay (view d) (W.pos d) (toCrlf (ops.flatMap WOp.bytes)) := by
  intro r f hf
  have TL := TW.lawful (W := W) L hi owns bo junk
  have hal := WOp.allAllowed (W := BW.ops (TW.cls W owns bo junk)) ops (newWriter (TW.init W d)) hop
  obtain ⟨c2, c3⟩ := C39_flush TL (TW.init_spec d) ops hal t hf
  have e := WOp.replay_appends ops r.1 [] (WOp.runAll_length ops _) hop
  have e' : WOp.replay ops (textRun W d owns bo junk ops).1 (TW.logOf (TW.init W d).dst, (TW.init W d).startPos) = _ := e
  rw [show WOp.replay ops (WOp.runAll (BW.ops (TW.cls W owns bo junk)) ops (newWriter (TW.init W d))).1
    (TW.logOf (TW.init W d).dst, (TW.init W d).startPos) = _ from e'] at c2
  have hlog : f.2.phys.dst.log = ops.flatMap WOp.bytes := c2
  have hinv := ((BW.lawful TL).runAll (newWriter_inv (TW.init_spec d)) hal).1
  obtain ⟨fb, fd⟩ := TW.flushBehind_spec L hi (owns := owns) (bs := r.2.data) (t := t) hinv.phys
  have hphys : f.2.phys = (TW.flushBehind W owns r.2.data t r.2.phys).2 ∧ (TW.flushBehind W owns r.2.data t r.2.phys).1 = true := by
    have hf' : (BW.flushImpl (TW.cls W owns bo junk) t r.2).1 = true := hf
    show (BW.flushImpl (TW.cls W owns bo junk) t r.2).2.phys = _ ∧ _
    have aft : ∀ (b : BW (TW σ)) (p : WPhys (TW σ)), (b.after p).phys = p := fun b p => by unfold BW.after; split <;> rfl
    unfold BW.flushImpl at hf' ⊢
    dsimp only at hf' ⊢
    have hx : (TW.cls W owns bo junk).flushBehind = TW.flushBehind W owns := rfl
    rw [hx] at hf' ⊢
    have hd : BW.data { r.2 with sizer := r.2.sizer.endRun (r.2.phys.startPos + r.2.len) } = r.2.data := rfl
    rw [hd] at hf' ⊢
    have hcl : (BW.clear { r.2 with sizer := r.2.sizer.endRun (r.2.phys.startPos + r.2.len) }).phys = r.2.phys := rfl
    rw [hcl] at hf' ⊢
    generalize TW.flushBehind W owns r.2.data t r.2.phys = z at *
    split at hf'
    · cases hf'
    · rename_i hz
      rw [if_neg hz]
      refine ⟨?_, by simpa using hz⟩
      dsimp only at hf' ⊢
      split at hf'
      · rename_i hq
        rw [if_pos hq]
        exact aft _ _
      · cases hf'
  obtain ⟨p1, p2⟩ := hphys
  obtain ⟨b1, b2, b3, b4⟩ := fb.2.2.1 p2
  obtain ⟨a1, a2, a3⟩ := fb.1.all b2
  obtain ⟨v1, v2⟩ := wrote_view L hi a1 a2
  show dest f.2.phys.dst.dst = _
  rw [← hlog, p1]
  exact (fd p2 ht).trans v1

/-- **C54.** Crash safety of appending: if the destination is at its end, then at any point, even if writing failed, the contents of the
destination are its initial contents followed by a part, from the beginning, of the converted data which were written. The same after `Close()`. -/
theorem C54_appending (L : W.Lawful view dest Inv) (hi : Inv d) (hop : ∀ op ∈ ops, op.Appends = true) (hp : W.pos d = (view d).length)
    (hd : dest d <+: view d) :
    let b := (textRun W d owns bo junk ops).2
    let c := b.done (TW.cls W owns bo junk)
    (dest d <+: dest b.phys.dst.dst ∧ dest b.phys.dst.dst <+: view d ++ toCrlf (ops.flatMap WOp.bytes)) ∧
    dest d <+: dest c.dst.dst ∧ dest c.dst.dst <+: view d ++ toCrlf (ops.flatMap WOp.bytes) := by
  intro b c
  have TL := TW.lawful (W := W) L hi owns bo junk
  have hal := WOp.allAllowed (W := BW.ops (TW.cls W owns bo junk)) ops (newWriter (TW.init W d)) hop
  have hinv := ((BW.lawful TL).runAll (newWriter_inv (TW.init_spec d)) hal).1
  obtain ⟨d1, -⟩ := BW.done_spec TL hinv
  obtain ⟨⟨k, hk⟩, ⟨k', hk'⟩⟩ := C39_appending TL (TW.init_spec d) rfl ops hop
  have key : ∀ (p : WPhys (TW σ)) (k : Nat), TW.TInv W d p → p.dst.log = (ops.flatMap WOp.bytes).take k →
      dest d <+: dest p.dst.dst ∧ dest p.dst.dst <+: view d ++ toCrlf (ops.flatMap WOp.bytes) := by
    intro p k hp' hl
    obtain ⟨x, hx, calls, h1, h2, h3⟩ := hp'.part
    obtain ⟨a1, a2⟩ := L.appends hi h2 hp hd
    rw [← h1] at a1 a2
    refine ⟨a1, a2.trans ?_⟩
    rw [h3, List.prefix_append_right_inj]
    refine hx.trans ?_
    rw [hl]
    conv => rhs; rw [← List.take_append_drop k (ops.flatMap WOp.bytes), toCrlf_append]
    exact List.prefix_append _ _
  exact ⟨key _ k hinv.phys (by rw [show b.phys.dst.log = _ from hk]; rfl), key _ k' d1 (by rw [show c.dst.log = _ from hk']; rfl)⟩

/-- **C54.** Text written with `TextWriter` and read with `TextReader` is the same text, even if it has CR at the end, CR LF, or LF CR. -/
theorem C54_round_trip (L : W.Lawful view dest Inv) (hi : Inv d) (hop : ∀ op ∈ ops, op.Appends = true) (he : view d = []) (hp : W.pos d = 0)
    {σ' : Type} {R : ReaderOps σ'} {E : Prop} {Inv' : σ' → Prop} {tolerates : σ' → Bool} {bo' : BufOpts} {room : Nat → Nat → Bool}
    {push : Nat → Nat} {s : σ'} {b : BR (TR σ')} {D : Bytes} (hc : ((textRun W d owns bo junk ops).2.done (TW.cls W owns bo junk)).ok = true)
    (hD : D = view ((textRun W d owns bo junk ops).2.done (TW.cls W owns bo junk)).dst.dst) (L' : R.Lawful D E Inv')
    (hst : Steady R Inv') (hs : Inv' s) (ho : R.ok s = true) (h0 : R.cursor s = 0) (hlen : D.length < 2 ^ 64 - 1)
    (h : TextReach R tolerates bo' room push s b) (op : ROp) :
    op.Meets (BR.ops (TR.cls R tolerates bo' room push)) (ops.flatMap WOp.bytes) E b := by
  obtain ⟨c1, c2, c3, c4⟩ := C54_close (owns := owns) (bo := bo) (junk := junk) L hi hop hc
  have hD' : D = toCrlf (ops.flatMap WOp.bytes) := by
    rw [hD, c2, he, hp]
    exact (overlay_end [] _).trans (List.nil_append _)
  have := (C53_reads_the_text L' hst hs ho hlen h op).1
  rw [h0, hD', List.drop_zero, toLf_toCrlf] at this
  exact this

end

/-! ## Concrete cases -/

/-- A source which delivers data in fragments of one byte, and never fails, is steady. -/
theorem frag_steady (D : Bytes) (back : Nat → Nat) : Steady (frag D (fun _ => 0) back none).toOps (Frag.Inv D) where
  pull s n rec _ ho := by
    show ((frag D (fun _ => 0) back none).toOps.pull n rec s).2.ok = true
    have ho : s.ok = true := ho
    unfold ReaderOps.pull
    split
    · exact ho
    · show ((frag D (fun _ => 0) back none).pullSlow n rec s).2.ok = true
      unfold frag
      dsimp only
      rw [if_neg (by rw [ho]; decide)]
      split <;> rfl
  seek s q h ho hb := by
    obtain ⟨-, ⟨-, -, h3, -⟩, -⟩ := (frag_lawful D (fun _ => 0) back none).toOps.seek q h
    rcases (h3 hb).2 with h4 | h4
    · exact h4.trans ho
    · exact h4.elim

/-- "a CR LF CR CR LF b CR". -/
def exText : Bytes := [97, 13, 10, 13, 13, 10, 98, 13]

/-- A reader of it, delivering data in fragments of one byte, able to go back. -/
abbrev exTextSrc : ReaderOps Frag := (frag exText (fun _ => 0) (fun c => c) none).toOps

/-- The hypotheses of C53 are met. -/
example : exTextSrc.Lawful exText (none = (none : Option Nat)) (Frag.Inv exText) ∧ Steady exTextSrc (Frag.Inv exText) ∧
    Frag.Inv exText ⟨0, 0, 0, true⟩ ∧ exTextSrc.ok ⟨0, 0, 0, true⟩ = true :=
  ⟨(frag_lawful _ _ _ _).toOps, frag_steady _ _, ⟨Nat.le_refl _, Nat.le_refl _, Nat.zero_le _⟩, rfl⟩

/-- Reading the text: the first LF lost its CR, also the second one lost one of two; a CR at the end remains. -/
example :
    let S := TR.cls exTextSrc (fun _ => false) ⟨2, 4⟩ (fun _ _ => false) id
    let b := TR.init exTextSrc ⟨0, 0, 0, true⟩ ⟨0, 0, false⟩
    let r := (BR.ops S).read .chars 3 b
    let r' := (BR.ops S).read .chars 9 r.2.2
    let q := (BR.ops S).seek 1 r'.2.2
    let r'' := (BR.ops S).read .blocks 2 q.2
    toLf exText = [97, 10, 13, 10, 98, 13] ∧ r.1 = true ∧ r.2.1 = [97, 10, 13] ∧ r'.1 = false ∧ r'.2.1 = [10, 98, 13] ∧ r'.2.2.phys.ok = true ∧
    q.1 = true ∧ r''.1 = true ∧ r''.2.1 = [10, 13] := by decide +kernel

/-- Writing text to a file, with the destination meeting the hypotheses of C54 (see `exDst` and its class in `Verif/Props/LimitingWriter.lean`). -/
example :
    let r := textRun exOps exDst true ⟨2, 4⟩ (fun _ _ => 255) [.write [97, 10, 98], .writeChar 10, .write [13, 10], .flush .fromProcess, .write [99]]
    r.1 = [true, true, true, true, true] ∧ r.2.pos = 7 ∧ r.2.phys.dst.dst.phys.dst.content = [10, 11, 97, 13, 10, 98, 13, 10, 13, 13, 10] ∧
    (r.2.done (TW.cls exOps true ⟨2, 4⟩ fun _ _ => 255)).ok = true := by decide +kernel

/-! ## Findings -/

/-- Finding 38: if the source fails, then `TextReader` claims that the data ended; and if this happened between CR and LF, then it reads CR. -/
theorem C53_failure_of_the_source_is_not_noticed :
    let R := (frag exText (fun _ => 0) (fun _ => 0) (some 2)).toOps
    let S := TR.cls R (fun _ => false) ⟨2, 4⟩ (fun _ _ => false) id
    let b := TR.init R ⟨0, 0, 0, true⟩ ⟨0, 0, false⟩
    let r := (BR.ops S).read .chars 3 b
    R.Lawful exText (some 2 = (none : Option Nat)) (Frag.Inv exText) ∧
    r.1 = false ∧ r.2.2.phys.ok = true ∧ r.2.1 = [97, 13] ∧ R.ok r.2.2.phys.src.src = false ∧
    (r.2.2.done S).ok = true := by
  refine ⟨(frag_lawful _ _ _ _).toOps, ?_⟩
  decide +kernel

end Riegeli.Props
