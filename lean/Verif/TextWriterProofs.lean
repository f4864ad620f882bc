import Verif.TextWriter
import Verif.TextReaderProofs
import Verif.BufferedWriterProofs
/-!
# `TextWriter` meets the contract of a class derived from `BufferedWriter`
-/
namespace Riegeli.Wtr
open Rdr (crByte lfByte toLf)

/-- The meaning of `WriteNewline::kCrLf`: each LF is replaced with CR LF. -/
def toCrlf : Bytes → Bytes
  | [] => []
  | a :: r => if a = lfByte then crByte :: lfByte :: toCrlf r else a :: toCrlf r

theorem toCrlf_append (a b : Bytes) : toCrlf (a ++ b) = toCrlf a ++ toCrlf b := by
  induction a with
  | nil => rfl
  | cons x a ih =>
    rw [List.cons_append, toCrlf, toCrlf, ih]
    split <;> rfl

theorem toCrlf_line {a : Bytes} (h : ∀ b ∈ a, b ≠ lfByte) : toCrlf a = a := by
  induction a with
  | nil => rfl
  | cons x a ih => rw [toCrlf, if_neg (h x (List.mem_cons_self ..)), ih fun b hb => h b (List.mem_cons_of_mem _ hb)]

/-- Converted data never begin with LF. -/
theorem toCrlf_head (a : Bytes) (r : Bytes) : toCrlf a ≠ lfByte :: r := by
  cases a with
  | nil => exact List.cons_ne_nil _ _ |>.symm
  | cons x a =>
    rw [toCrlf]
    split
    · intro h; injection h with h; exact absurd h (by decide)
    · rename_i hx; intro h; injection h with h; exact hx h

/-- Reading converted data as text gives the original data. -/
theorem toLf_toCrlf (a : Bytes) : toLf (toCrlf a) = a := by
  induction a with
  | nil => rfl
  | cons x a ih =>
    rw [toCrlf]
    split
    · rename_i hx
      rw [Rdr.toLf_crlf, ih, hx]
    · rename_i hx
      by_cases hc : x = crByte
      · subst hc
        cases hr : toCrlf a with
        | nil => rw [hr] at ih; rw [← ih]; rfl
        | cons y r =>
          have hy : y ≠ lfByte := fun h => toCrlf_head a r (by rw [hr, h])
          rw [Rdr.toLf_cr hy, ← hr, ih]
      · rw [Rdr.toLf_ne hc, ih]

theorem takeWhile_lf (bs : Bytes) :
    (∀ b ∈ bs.takeWhile (· != lfByte), b ≠ lfByte) ∧
    ((bs.takeWhile (· != lfByte)).length = bs.length ∧ bs.takeWhile (· != lfByte) = bs ∨
      (bs.takeWhile (· != lfByte)).length < bs.length ∧
      bs = bs.takeWhile (· != lfByte) ++ lfByte :: bs.drop ((bs.takeWhile (· != lfByte)).length + 1)) := by
  induction bs with
  | nil => exact ⟨fun b hb => (nomatch hb), .inl ⟨rfl, rfl⟩⟩
  | cons a bs ih =>
    by_cases h : a = lfByte
    · subst h
      have : List.takeWhile (· != lfByte) (lfByte :: bs) = [] := by simp [List.takeWhile]
      rw [this]
      exact ⟨fun b hb => (nomatch hb), .inr ⟨Nat.succ_pos _, rfl⟩⟩
    · have : List.takeWhile (· != lfByte) (a :: bs) = a :: List.takeWhile (· != lfByte) bs := by
        rw [List.takeWhile_cons, if_pos (by simp [h])]
      rw [this]
      refine ⟨fun b hb => ?_, ?_⟩
      · cases hb with
        | head => exact h
        | tail _ hb => exact ih.1 b hb
      · rcases ih.2 with ⟨h1, h2⟩ | ⟨h1, h2⟩
        · exact .inl ⟨by simp [h1], by rw [h2]⟩
        · exact .inr ⟨by simp [h1], by rw [List.cons_append, List.length_cons, List.drop_succ_cons, ← h2]⟩

theorem WOp.runAll_append {σ : Type} (W : WriterOps σ) (ops : List WOp) (op : WOp) (s : σ) :
    (WOp.runAll W (ops ++ [op]) s).2 = (op.run W (WOp.runAll W ops s).2).2 := by
  induction ops generalizing s with
  | nil => rfl
  | cons o ops ih => exact ih _

namespace TW
variable {σ : Type} {W : WriterOps σ} {view dest : σ → Bytes} {Inv : σ → Prop} {d₀ : σ}

/-- `d` is the destination `d₀` after calls of functions which wrote `bs`. -/
def Wrote (W : WriterOps σ) (d₀ : σ) (bs : Bytes) (d : σ) : Prop :=
  ∃ calls : List WOp, d = (WOp.runAll W calls d₀).2 ∧ (∀ op ∈ calls, op.Appends = true) ∧ calls.flatMap WOp.bytes = bs

theorem Wrote.op {bs : Bytes} {d : σ} (h : Wrote W d₀ bs d) (op : WOp) (ha : op.Appends = true) : Wrote W d₀ (bs ++ op.bytes) (op.run W d).2 := by
  obtain ⟨calls, rfl, h2, rfl⟩ := h
  refine ⟨calls ++ [op], (WOp.runAll_append W calls op d₀).symm, fun o ho => ?_, by simp⟩
  rcases List.mem_append.1 ho with ho | ho
  · exact h2 o ho
  · rw [List.mem_singleton.1 ho]; exact ha

theorem Wrote.inv (L : W.Lawful view dest Inv) (hi : Inv d₀) {bs : Bytes} {d : σ} (h : Wrote W d₀ bs d) : Inv d := by
  obtain ⟨calls, rfl, h2, rfl⟩ := h
  exact (L.runAll hi (WOp.allAllowed calls d₀ h2)).1

theorem write_ok (L : W.Lawful view dest Inv) (hi : Inv d₀) {bs a : Bytes} {d : σ} (h : Wrote W d₀ bs d) (ho : W.ok d = true) :
    Wrote W d₀ (bs ++ a) (W.write a d).2 ∧ ((W.write a d).1 = true → W.ok (W.write a d).2 = true) :=
  ⟨h.op (.write a) rfl, fun hb => ((L.write (bs := a) (h.inv L hi)).1.2.1 hb).2.2.trans ho⟩

theorem writeLine_spec (L : W.Lawful view dest Inv) (hi : Inv d₀) {bs a : Bytes} {d : σ} (h : Wrote W d₀ bs d) (ho : W.ok d = true) :
    ((writeLine W a d).1 = true → Wrote W d₀ (bs ++ a ++ [crByte, lfByte]) (writeLine W a d).2 ∧ W.ok (writeLine W a d).2 = true) ∧
    ((writeLine W a d).1 = false → ∃ x, x <+: bs ++ a ++ [crByte, lfByte] ∧ Wrote W d₀ x (writeLine W a d).2) := by
  obtain ⟨a1, a2⟩ := write_ok L hi (a := a) h ho
  unfold writeLine
  dsimp only
  split
  · exact ⟨(fun hb => by cases hb), fun _ => ⟨_, List.prefix_append _ _, a1⟩⟩
  · rename_i hb
    have hb : (W.write a d).1 = true := by simpa using hb
    obtain ⟨b1, b2⟩ := write_ok L hi (a := [crByte, lfByte]) a1 (a2 hb)
    exact ⟨fun hb => ⟨b1, b2 hb⟩, fun _ => ⟨_, List.prefix_refl _, b1⟩⟩

theorem writeLoop_spec (L : W.Lawful view dest Inv) (hi : Inv d₀) (fuel : Nat) {l bs : Bytes} {d : σ} {p : Nat} (h : Wrote W d₀ (toCrlf l) d)
    (ho : W.ok d = true) (hf : bs.length < fuel) :
    ((writeLoop W fuel bs d p).1 = true → Wrote W d₀ (toCrlf (l ++ bs)) (writeLoop W fuel bs d p).2.1 ∧
      W.ok (writeLoop W fuel bs d p).2.1 = true ∧ (writeLoop W fuel bs d p).2.2 = p + bs.length) ∧
    ((writeLoop W fuel bs d p).1 = false → ∃ x, x <+: toCrlf (l ++ bs) ∧ Wrote W d₀ x (writeLoop W fuel bs d p).2.1) := by
  induction fuel generalizing l bs d p with
  | zero => omega
  | succ fuel ih =>
    obtain ⟨t1, t2⟩ := takeWhile_lf bs
    unfold writeLoop
    dsimp only
    generalize bs.takeWhile (· != lfByte) = line at *
    split
    · rename_i he
      rcases t2 with ⟨-, t2⟩ | ⟨t2, -⟩
      · subst t2
        obtain ⟨a1, a2⟩ := write_ok L hi (a := line) h ho
        rw [toCrlf_append, toCrlf_line t1]
        split
        · exact ⟨(fun hb => by cases hb), fun _ => ⟨_, List.prefix_refl _, a1⟩⟩
        · rename_i hb
          exact ⟨fun _ => ⟨a1, a2 (by simpa using hb), rfl⟩, fun hb => by cases hb⟩
      · omega
    · rename_i he
      rcases t2 with ⟨t2, -⟩ | ⟨t2, t3⟩
      · omega
      generalize hr : bs.drop (line.length + 1) = r at *
      have hl : toCrlf (l ++ (line ++ [lfByte])) = toCrlf l ++ line ++ [crByte, lfByte] := by
        rw [toCrlf_append, toCrlf_append, toCrlf_line t1, List.append_assoc]; rfl
      have hall : l ++ bs = l ++ (line ++ [lfByte]) ++ r := by rw [t3]; simp
      have hlen : bs.length = line.length + 1 + r.length := by rw [t3]; simp; omega
      obtain ⟨a1, a2⟩ := writeLine_spec L hi (a := line) h ho
      split
      · rename_i hb
        obtain ⟨x, x1, x2⟩ := a2 hb
        refine ⟨(fun hb => by cases hb), fun _ => ⟨x, ?_, x2⟩⟩
        rw [hall, toCrlf_append, hl]
        exact x1.trans (List.prefix_append _ _)
      · rename_i hb
        obtain ⟨b1, b2⟩ := a1 (by simpa using hb)
        rw [← hl] at b1
        obtain ⟨c1, c2⟩ := ih (l := l ++ (line ++ [lfByte])) (bs := r) (p := p + (line.length + 1)) b1 b2 (by omega)
        rw [hall]
        refine ⟨fun hb => ?_, c2⟩
        obtain ⟨e1, e2, e3⟩ := c1 hb
        exact ⟨e1, e2, by rw [e3]; omega⟩

/-- The invariant of `TextWriter`: the calls of the destination wrote the converted data. -/
structure TInv (W : WriterOps σ) (d₀ : σ) (p : WPhys (TW σ)) : Prop where
  part : ∃ x, x <+: toCrlf p.dst.log ∧ Wrote W d₀ x p.dst.dst
  all : p.ok = true → Wrote W d₀ (toCrlf p.dst.log) p.dst.dst ∧ W.ok p.dst.dst = true ∧ p.startPos = p.dst.log.length

theorem TInv.fail {p : WPhys (TW σ)} (h : TInv W d₀ p) : TInv W d₀ { p with ok := false } := ⟨h.part, fun hb => by cases hb⟩

/-- What was written to a `TextWriter`. -/
def logOf (t : TW σ) : Bytes := t.log

theorem writeInternal_spec (L : W.Lawful view dest Inv) (hi : Inv d₀) {bs : Bytes} {p : WPhys (TW σ)} (h : TInv W d₀ p) (ho : p.ok = true) :
    BWrites logOf (TInv W d₀) bs p (writeInternal W bs p) := by
  obtain ⟨a1, a2, a3⟩ := h.all ho
  obtain ⟨w1, w2⟩ := writeLoop_spec L hi (bs.length + 1) (bs := bs) (p := p.startPos) a1 a2 (Nat.lt_succ_self _)
  unfold writeInternal
  dsimp only
  generalize writeLoop W (bs.length + 1) bs p.dst.dst p.startPos = z at *
  have hov : p.dst.log ++ bs = overlay p.dst.log p.startPos bs := by rw [a3, overlay_end]
  refine ⟨⟨?_, fun hb => ?_⟩, ⟨bs.length, Nat.le_refl _, ?_⟩, fun hb => ⟨ho, ?_, hov, ?_⟩, fun hb => ?_, fun hb => (Bool.false_ne_true (hb.symm.trans ho)).elim⟩
  · cases hz : z.1 with
    | true => exact ⟨_, List.prefix_refl _, (w1 hz).1⟩
    | false => exact w2 hz
  · dsimp only at hb ⊢
    rw [ho, Bool.true_and] at hb
    obtain ⟨b1, b2, b3⟩ := w1 hb
    exact ⟨b1, b2, by rw [b3, a3, List.length_append]⟩
  · rw [List.take_length]; exact hov
  · dsimp only at hb ⊢; rw [ho, hb]; rfl
  · exact (w1 hb).2.2
  · dsimp only at hb ⊢; rw [ho, hb]; rfl

theorem defaultFlush_spec (L : W.Lawful view dest Inv) (hi : Inv d₀) {bs : Bytes} {p : WPhys (TW σ)} (h : TInv W d₀ p) :
    BWrites logOf (TInv W d₀) bs p (BDst.defaultFlush (writeInternal W) bs p) := by
  unfold BDst.defaultFlush
  split
  · rename_i ho
    exact ⟨h, ⟨0, Nat.zero_le _, by simp [overlay]⟩, (fun hb => by cases hb), fun _ => ho, fun _ => ⟨ho, rfl⟩⟩
  · rename_i ho
    have ho : p.ok = true := by simpa using ho
    split
    · rename_i hb
      subst hb
      exact ⟨h, ⟨0, Nat.zero_le _, by simp [overlay]⟩, fun _ => ⟨ho, ho, by simp [overlay], rfl⟩, (fun hb => by cases hb), fun hf => ⟨hf, rfl⟩⟩
    · exact writeInternal_spec L hi h ho

theorem flushBehind_spec (L : W.Lawful view dest Inv) (hi : Inv d₀) {owns : Bool} {bs : Bytes} {t : FlushType} {p : WPhys (TW σ)} (h : TInv W d₀ p) :
    BWrites logOf (TInv W d₀) bs p (flushBehind W owns bs t p) ∧
    ((flushBehind W owns bs t p).1 = true → t ≠ .fromObject →
      dest (flushBehind W owns bs t p).2.dst.dst = view (flushBehind W owns bs t p).2.dst.dst) := by
  have hd := defaultFlush_spec L hi (bs := bs) h
  unfold flushBehind
  dsimp only
  generalize BDst.defaultFlush (writeInternal W) bs p = r at *
  obtain ⟨a1, a2, a3, a4, a5⟩ := hd
  split
  · rename_i hb
    exact ⟨⟨a1, a2, (fun hb => by cases hb), fun _ => a4 hb, a5⟩, fun hb => by cases hb⟩
  · rename_i hb
    have hb : r.1 = true := by simpa using hb
    obtain ⟨b1, b2, b3, b4⟩ := a3 hb
    obtain ⟨c1, c2, c3⟩ := a1.all b2
    split
    · exact ⟨⟨a1, a2, fun _ => a3 hb, (fun hb => by cases hb), a5⟩, fun _ ht => absurd rfl ht⟩
    · obtain ⟨f1, f2⟩ := L.flushImpl t _ (c1.inv L hi)
      have hw := c1.op (.flush t) rfl
      rw [show WOp.bytes (.flush t) = [] from rfl, List.append_nil] at hw
      have hw : Wrote W d₀ (toCrlf r.2.dst.log) (W.flushImpl t r.2.dst.dst).2 := hw
      generalize W.flushImpl t r.2.dst.dst = f at *
      refine ⟨⟨⟨⟨_, List.prefix_refl _, hw⟩, fun hf => ⟨hw, ?_, c3⟩⟩, a2, fun hf => ⟨b1, ?_, b3, b4⟩, fun hf => ?_, fun ho => ?_⟩, fun hf ht => ?_⟩
      · dsimp only at hf
        rw [b2, Bool.true_and] at hf
        exact (f1.2.1 hf).2.2.trans c2
      · dsimp only at hf ⊢; rw [b2, hf]; rfl
      · dsimp only at hf ⊢; rw [hf, Bool.and_false]
      · exact (Bool.false_ne_true (ho.symm.trans b1)).elim
      · dsimp only at hf ⊢
        rw [(f2 hf).2 ht, (f1.2.1 hf).1]; simp [overlay]

/-- `TextWriter` meets the contract of a class derived from `BufferedWriter`. -/
theorem lawful (L : W.Lawful view dest Inv) (hi : Inv d₀) (owns : Bool) (opts : Rdr.BufOpts) (junk : Nat → Nat → UInt8) :
    (cls W owns opts junk).Lawful logOf False (TInv W d₀) where
  fail p h := h.fail
  writeInternal bs p h ho _ := writeInternal_spec L hi h ho
  flushBehind bs t p h := (flushBehind_spec L hi h).1
  doneBehind bs p h := by
    obtain ⟨a1, a2, a3, a4, a5⟩ := defaultFlush_spec L hi (bs := bs) h
    show BWrites logOf (TInv W d₀) bs p (((BDst.defaultFlush (writeInternal W) bs p).2).ok, (BDst.defaultFlush (writeInternal W) bs p).2)
    generalize BDst.defaultFlush (writeInternal W) bs p = r at *
    refine ⟨a1, a2, fun hb => ?_, id, a5⟩
    cases hr : r.1 with
    | true => exact a3 hr
    | false => exact (Bool.false_ne_true ((a4 hr).symm.trans hb)).elim
  seekBehind q p h _ := ⟨h.fail, rfl, (fun hb => by cases hb), fun _ => .inl rfl, fun _ => rfl⟩
  sizeBehind p h := ⟨h.fail, rfl, (fun _ hn => by cases hn), fun _ => rfl, fun _ => rfl⟩
  truncateBehind hT := hT.elim
  readModeBehind q p h := ⟨h.fail, rfl, (fun hb => by cases hb), fun _ => rfl, fun _ => rfl⟩
  randomAccess p h := ⟨h, rfl, rfl, (fun hb => by cases hb), id⟩

theorem init_spec (d : σ) : TInv W d (init W d) :=
  ⟨⟨[], List.prefix_refl _, ⟨[], rfl, (fun _ h => by cases h), rfl⟩⟩, fun ho => ⟨⟨[], rfl, (fun _ h => by cases h), rfl⟩, ho, rfl⟩⟩

end TW
end Riegeli.Wtr
