import Verif.FdWriter
import Verif.BufferedWriterProofs
/-!
# Proofs about `FdWriter`

`FdW.dst_lawful`: the virtual functions of `FdWriter` do what `BufferedWriter` requires. `FdW.lawful`: `FdWriter` is a lawful class of
writers.
-/
namespace Riegeli.Wtr

/-- Whether the writer only sends data (`stream`), the initial position of the writer, the initial contents of the file, and the initial
position of the file descriptor. -/
structure FdCfg where
  stream : Bool
  p0 : Nat
  content0 : Bytes
  pos0 : Nat

/-- The contents of the file after sending data from the initial position of the file descriptor. -/
def sink (os : WOs) (c : Bytes) (pos : Nat) (bs : Bytes) : Bytes :=
  if os.append || !os.seekable then c ++ bs else overlay c pos bs

/-- The contents of the destination, as the writer sees it. If the writer only sends data, then data before its initial position are
unspecified: they are taken to be zeros. -/
def FdCfg.dest (cfg : FdCfg) (d : FdW) : Bytes := if cfg.stream then List.replicate cfg.p0 0 ++ d.sent else d.content

/-- The invariant of `FdWriter`. -/
structure FdInv (os : WOs) (cfg : FdCfg) (p : WPhys FdW) : Prop where
  lazy : p.dst.rm = none → p.dst.ra = none
  stream : cfg.stream = true → p.dst.ra ≠ some true ∧ p.dst.content = sink os cfg.content0 cfg.pos0 p.dst.sent ∧
    (p.ok = true → p.dst.ra = some false ∧ p.dst.rm = some false ∧ p.dst.readMode = false ∧ p.dst.indep = false ∧
      p.startPos = cfg.p0 + p.dst.sent.length ∧ (os.append = false → os.seekable = true → p.dst.filePos = cfg.pos0 + p.dst.sent.length))
  file : cfg.stream = false → p.ok = true →
    (p.dst.indep = true ∧ os.append = false) ∨
    (p.dst.indep = false ∧ os.seekable = true ∧ os.append = false ∧ (p.dst.readMode = false → p.dst.filePos = p.startPos)) ∨
    (p.dst.indep = false ∧ os.seekable = true ∧ os.append = true ∧ p.startPos = p.dst.content.length ∧ p.dst.ra = some false)

namespace FdW
variable {os : WOs} {cfg : FdCfg} {p : WPhys FdW}

theorem fail_inv (h : FdInv os cfg p) : FdInv os cfg { p with ok := false } :=
  ⟨h.lazy, fun hs => ⟨(h.stream hs).1, (h.stream hs).2.1, fun h => (Bool.false_ne_true h).elim⟩, fun _ h => (Bool.false_ne_true h).elim⟩

theorem tick_inv (h : FdInv os cfg p) : FdInv os cfg (tick p) := ⟨h.lazy, h.stream, h.file⟩

/-- `SeekInternal()`, for a writer of a file. -/
theorem seekInternal_spec (q : Nat) (h : FdInv os cfg p) (ho : p.ok = true) (hs : cfg.stream = false)
    (hq : os.append = true → q = p.dst.content.length) :
    FdInv os cfg (seekInternal os q p).2 ∧ cfg.dest (seekInternal os q p).2.dst = cfg.dest p.dst ∧
    ((seekInternal os q p).1 = true → (seekInternal os q p).2.ok = true ∧ (seekInternal os q p).2.startPos = q) ∧
    ((seekInternal os q p).1 = false → (seekInternal os q p).2.ok = false) := by
  unfold seekInternal
  by_cases hi : p.dst.indep = true
  · rw [if_pos hi]
    refine ⟨⟨h.lazy, fun h => (by rw [hs] at h; cases h), fun _ _ => ?_⟩, rfl, fun _ => ⟨ho, rfl⟩, fun h => (Bool.false_ne_true h.symm).elim⟩
    rcases h.file hs ho with h1 | h1 | h1
    · exact .inl h1
    · exact absurd (h1.1.symm.trans hi) Bool.false_ne_true
    · exact absurd (h1.1.symm.trans hi) Bool.false_ne_true
  · rw [if_neg hi]
    by_cases hc : os.seekable = false ∨ os.succeeds p.dst.clock = false
    · rw [if_pos hc]
      exact ⟨fail_inv (tick_inv h), rfl, fun h => (Bool.false_ne_true h).elim, fun _ => rfl⟩
    · rw [if_neg hc]
      refine ⟨⟨h.lazy, fun h => (by rw [hs] at h; cases h), fun _ _ => ?_⟩, rfl, fun _ => ⟨ho, rfl⟩, fun h => (Bool.false_ne_true h.symm).elim⟩
      rcases h.file hs ho with h1 | h1 | h1
      · exact (hi h1.1).elim
      · exact .inr (.inl ⟨h1.1, h1.2.1, h1.2.2.1, fun _ => rfl⟩)
      · exact .inr (.inr ⟨h1.1, h1.2.1, h1.2.2.1, hq h1.2.2.1, h1.2.2.2.2⟩)

/-- `SizeStatus()`, which is called only while it is not known whether random access is supported. -/
theorem sizeStatus_spec (h : FdInv os cfg p) (ho : p.ok = true) (hr : p.dst.ra = none) :
    cfg.stream = false ∧ p.dst.indep = (sizeStatus os p).2.dst.indep ∧ p.dst.content = (sizeStatus os p).2.dst.content ∧
    p.startPos = (sizeStatus os p).2.startPos ∧ p.dst.readMode = (sizeStatus os p).2.dst.readMode ∧
    ((sizeStatus os p).1 = true → (sizeStatus os p).2.ok = true) ∧
    ((sizeStatus os p).2.ok = true → (p.dst.indep = true ∧ os.append = false) ∨ (p.dst.indep = false ∧ os.seekable = true ∧ os.append = false ∧
      (p.dst.readMode = false → (sizeStatus os p).2.dst.filePos = p.startPos))) := by
  have hs : cfg.stream = false := by
    cases hs : cfg.stream with
    | false => rfl
    | true => have := ((h.stream hs).2.2 ho).1; rw [hr] at this; cases this
  have hf := h.file hs ho
  unfold sizeStatus
  by_cases hc : os.seekable = false ∨ os.seekEnd = false ∨ os.succeeds p.dst.clock = false
  · rw [if_pos hc]
    refine ⟨hs, rfl, rfl, rfl, rfl, fun h => (Bool.false_ne_true h).elim, fun _ => ?_⟩
    rcases hf with h1 | h1 | h1
    · exact .inl h1
    · exact .inr h1
    · rw [hr] at h1; cases h1.2.2.2.2
  · rw [if_neg hc]
    dsimp only
    split
    · exact ⟨hs, rfl, rfl, rfl, rfl, fun h => (Bool.false_ne_true h).elim, fun h => (Bool.false_ne_true h).elim⟩
    · refine ⟨hs, rfl, rfl, rfl, rfl, fun _ => ho, fun _ => ?_⟩
      rcases hf with h1 | h1 | h1
      · exact .inl h1
      · exact .inr ⟨h1.1, h1.2.1, h1.2.2.1, fun _ => rfl⟩
      · rw [hr] at h1; cases h1.2.2.2.2

theorem randomAccess_spec (h : FdInv os cfg p) :
    FdInv os cfg (randomAccess os p).2 ∧ cfg.dest (randomAccess os p).2.dst = cfg.dest p.dst ∧
    (randomAccess os p).2.startPos = p.startPos ∧
    ((randomAccess os p).1 = true → cfg.stream = false ∧ (randomAccess os p).2.ok = p.ok ∧
      randomAccess os (randomAccess os p).2 = (true, (randomAccess os p).2) ∧ (randomAccess os p).2.dst.ra = some true) ∧
    (p.ok = false → (randomAccess os p).2.ok = false) := by
  cases hr : p.dst.ra with
  | some r =>
    have e : randomAccess os p = (r, p) := by unfold randomAccess; rw [hr]
    rw [e]
    refine ⟨h, rfl, rfl, fun ht => ?_, fun h => h⟩
    have ht : r = true := ht
    subst ht
    refine ⟨?_, rfl, e, hr⟩
    cases hs : cfg.stream with
    | false => rfl
    | true => exact absurd hr (h.stream hs).1
  | none =>
    by_cases ho : p.ok = false
    · have e : randomAccess os p = (false, p) := by unfold randomAccess; rw [hr]; dsimp only; rw [if_pos ho]
      rw [e]
      exact ⟨h, rfl, rfl, fun h => (Bool.false_ne_true h).elim, fun h => h⟩
    · have ho' := (Bool.not_eq_false _).mp ho
      obtain ⟨s1, s2, s3, s4, s5, s6, s7⟩ := sizeStatus_spec h ho' hr
      have e : randomAccess os p = if (sizeStatus os p).1 = false then (false, { (sizeStatus os p).2 with dst := { (sizeStatus os p).2.dst with ra := some false, rm := some false } })
        else (true, { (sizeStatus os p).2 with dst := { (sizeStatus os p).2.dst with ra := some true, rm := some ((sizeStatus os p).2.dst.rm.getD true) } }) := by
        conv => lhs; unfold randomAccess
        rw [hr]; dsimp only; rw [if_neg ho]
      rw [e]
      generalize sizeStatus os p = r at *
      by_cases hr1 : r.1 = false
      · rw [if_pos hr1]
        refine ⟨⟨(fun h => by cases h), fun h => (by rw [s1] at h; cases h), fun _ hok => ?_⟩, ?_, s4.symm, fun h => (Bool.false_ne_true h).elim, fun h => (ho h).elim⟩
        · rcases s7 hok with h1 | h1
          · exact .inl ⟨s2 ▸ h1.1, h1.2⟩
          · exact .inr (.inl ⟨s2 ▸ h1.1, h1.2.1, h1.2.2.1, fun hm => by rw [← s4]; exact h1.2.2.2 (s5 ▸ hm)⟩)
        · unfold FdCfg.dest; rw [s1]; exact s3.symm
      · rw [if_neg hr1]
        have hok := s6 ((Bool.not_eq_false _).mp hr1)
        refine ⟨⟨(fun h => by cases h), fun h => (by rw [s1] at h; cases h), fun _ _ => ?_⟩, ?_, s4.symm, fun _ => ⟨s1, by rw [ho']; exact hok, rfl, rfl⟩, fun h => (ho h).elim⟩
        · rcases s7 hok with h1 | h1
          · exact .inl ⟨s2 ▸ h1.1, h1.2⟩
          · exact .inr (.inl ⟨s2 ▸ h1.1, h1.2.1, h1.2.2.1, fun hm => by rw [← s4]; exact h1.2.2.2 (s5 ▸ hm)⟩)
        · unfold FdCfg.dest; rw [s1]; exact s3.symm

theorem supportsReadMode_spec (h : FdInv os cfg p) :
    FdInv os cfg (supportsReadMode os p).2 ∧ cfg.dest (supportsReadMode os p).2.dst = cfg.dest p.dst ∧
    (supportsReadMode os p).2.startPos = p.startPos ∧
    ((supportsReadMode os p).1 = true → (supportsReadMode os p).2.ok = p.ok ∧ (p.ok = true → cfg.stream = false)) ∧
    (p.ok = false → (supportsReadMode os p).2.ok = false) := by
  cases hr : p.dst.rm with
  | some r =>
    have e : supportsReadMode os p = (r, p) := by unfold supportsReadMode; rw [hr]
    rw [e]
    refine ⟨h, rfl, rfl, fun ht => ⟨rfl, fun ho => ?_⟩, fun h => h⟩
    have ht : r = true := ht
    subst ht
    cases hs : cfg.stream with
    | false => rfl
    | true => have := ((h.stream hs).2.2 ho).2.1; rw [hr] at this; cases this
  | none =>
    by_cases ho : p.ok = false
    · have e : supportsReadMode os p = (false, p) := by unfold supportsReadMode; rw [hr]; dsimp only; rw [if_pos ho]
      rw [e]
      exact ⟨h, rfl, rfl, fun h => (Bool.false_ne_true h).elim, fun h => h⟩
    · have ho' := (Bool.not_eq_false _).mp ho
      obtain ⟨s1, s2, s3, s4, s5, s6, s7⟩ := sizeStatus_spec h ho' (h.lazy hr)
      have e : supportsReadMode os p = if (sizeStatus os p).1 = false then (false, { (sizeStatus os p).2 with dst := { (sizeStatus os p).2.dst with ra := some false, rm := some false } })
        else (true, { (sizeStatus os p).2 with dst := { (sizeStatus os p).2.dst with ra := some true, rm := some true } }) := by
        conv => lhs; unfold supportsReadMode
        rw [hr]; dsimp only; rw [if_neg ho]
      rw [e]
      generalize sizeStatus os p = r at *
      have hfile : r.2.ok = true → (r.2.dst.indep = true ∧ os.append = false) ∨
          (r.2.dst.indep = false ∧ os.seekable = true ∧ os.append = false ∧ (r.2.dst.readMode = false → r.2.dst.filePos = r.2.startPos)) := fun hok => by
        rcases s7 hok with h1 | h1
        · exact .inl ⟨s2 ▸ h1.1, h1.2⟩
        · exact .inr ⟨s2 ▸ h1.1, h1.2.1, h1.2.2.1, fun hm => by rw [← s4]; exact h1.2.2.2 (s5 ▸ hm)⟩
      by_cases hr1 : r.1 = false
      · rw [if_pos hr1]
        refine ⟨⟨(fun h => by cases h), fun h => (by rw [s1] at h; cases h), fun _ hok => ?_⟩, ?_, s4.symm, fun h => (Bool.false_ne_true h).elim, fun h => (ho h).elim⟩
        · rcases hfile hok with h1 | h1
          · exact .inl h1
          · exact .inr (.inl h1)
        · unfold FdCfg.dest; rw [s1]; exact s3.symm
      · rw [if_neg hr1]
        have hok := s6 ((Bool.not_eq_false _).mp hr1)
        refine ⟨⟨(fun h => by cases h), fun h => (by rw [s1] at h; cases h), fun _ _ => ?_⟩, ?_, s4.symm, fun _ => ⟨by rw [ho']; exact hok, fun _ => s1⟩, fun h => (ho h).elim⟩
        · rcases hfile hok with h1 | h1
          · exact .inl h1
          · exact .inr (.inl h1)
        · unfold FdCfg.dest; rw [s1]; exact s3.symm


theorem writeMode_spec (h : FdInv os cfg p) :
    FdInv os cfg (writeMode os p).2 ∧ cfg.dest (writeMode os p).2.dst = cfg.dest p.dst ∧
    ((writeMode os p).1 = true → (writeMode os p).2.startPos = p.startPos ∧ (writeMode os p).2.ok = p.ok ∧
      (writeMode os p).2.dst.readMode = false) ∧
    ((writeMode os p).1 = false → (writeMode os p).2.ok = false) ∧
    (p.ok = false → (writeMode os p).2.ok = false) := by
  unfold writeMode
  by_cases hm : p.dst.readMode = false
  · rw [if_pos hm]
    exact ⟨h, rfl, fun _ => ⟨rfl, rfl, hm⟩, fun h => (Bool.false_ne_true h.symm).elim, fun h => h⟩
  · rw [if_neg hm]
    have hm : p.dst.readMode = true := (Bool.not_eq_false _).mp hm
    dsimp only
    by_cases ho : p.ok = false
    · rw [if_pos ho]
      refine ⟨⟨h.lazy, fun hs => ⟨(h.stream hs).1, (h.stream hs).2.1, fun h => (by rw [show p.ok = true from h] at ho; cases ho)⟩,
        fun _ h => (by rw [show p.ok = true from h] at ho; cases ho)⟩, rfl, fun h => (Bool.false_ne_true h).elim, fun _ => ho, fun _ => ho⟩
    · rw [if_neg ho]
      have ho := (Bool.not_eq_false _).mp ho
      have hs : cfg.stream = false := by
        cases hs : cfg.stream with
        | false => rfl
        | true => have := ((h.stream hs).2.2 ho).2.2.1; rw [hm] at this; cases this
      -- leaving the read mode does not matter for what follows
      unfold seekInternal
      dsimp only
      by_cases hi : p.dst.indep = true
      · rw [if_pos hi]
        refine ⟨⟨h.lazy, fun h => (by rw [hs] at h; cases h), fun _ _ => ?_⟩, rfl, fun _ => ⟨rfl, rfl, rfl⟩, fun h => (Bool.false_ne_true h.symm).elim, fun h => h⟩
        rcases h.file hs ho with h1 | h1 | h1
        · exact .inl h1
        · exact absurd (h1.1.symm.trans hi) Bool.false_ne_true
        · exact absurd (h1.1.symm.trans hi) Bool.false_ne_true
      · rw [if_neg hi]
        by_cases hc : os.seekable = false ∨ os.succeeds p.dst.clock = false
        · rw [if_pos hc]
          exact ⟨⟨h.lazy, fun h => (by rw [hs] at h; cases h), fun _ h => (Bool.false_ne_true h).elim⟩, rfl, fun h => (Bool.false_ne_true h).elim, fun _ => rfl, fun _ => rfl⟩
        · rw [if_neg hc]
          refine ⟨⟨h.lazy, fun h => (by rw [hs] at h; cases h), fun _ _ => ?_⟩, rfl, fun _ => ⟨rfl, rfl, rfl⟩, fun h => (Bool.false_ne_true h.symm).elim, fun h => h⟩
          rcases h.file hs ho with h1 | h1 | h1
          · exact (hi h1.1).elim
          · exact .inr (.inl ⟨h1.1, h1.2.1, h1.2.2.1, fun _ => rfl⟩)
          · exact .inr (.inr ⟨h1.1, h1.2.1, h1.2.2.1, h1.2.2.2⟩)

theorem stream_dest (h : FdInv os cfg p) (hs : cfg.stream = true) (ho : p.ok = true) : (cfg.dest p.dst).length = p.startPos := by
  unfold FdCfg.dest
  rw [hs, ((h.stream hs).2.2 ho).2.2.2.2.1]; simp

/-- `write()` or `pwrite()` writes the data where the writer expects this. -/
theorem emit_spec (h : FdInv os cfg p) (ho : p.ok = true) (hr : p.dst.readMode = false) (bs : Bytes) (hb : bs ≠ []) :
    FdInv os cfg (emit os bs p) ∧ cfg.dest (emit os bs p).dst = overlay (cfg.dest p.dst) p.startPos bs := by
  cases hs : cfg.stream with
  | true =>
    have hd := stream_dest h hs ho
    obtain ⟨h1, h2, h3⟩ := h.stream hs
    obtain ⟨k1, k2, k3, k4, k5, k6⟩ := h3 ho
    constructor
    · refine ⟨h.lazy, fun _ => ⟨h1, ?_, fun _ => ⟨k1, k2, k3, k4, ?_, fun ha hk => ?_⟩⟩, fun hf => (by rw [hs] at hf; cases hf)⟩
      · show overlay p.dst.content (at' os p) bs = sink os _ _ (p.dst.sent ++ bs)
        unfold at' sink
        rw [if_neg (by rw [k4]; exact Bool.false_ne_true)]
        unfold sink at h2
        by_cases hc : (os.append || !os.seekable) = true
        · rw [if_pos hc] at h2 ⊢
          rw [if_pos hc, overlay_end, h2, List.append_assoc]
        · rw [if_neg hc] at h2 ⊢
          rw [if_neg hc, h2, k6 ?_ ?_, overlay_append]
          · cases ha : os.append with
            | false => rfl
            | true => rw [ha] at hc; exact (hc rfl).elim
          · cases ha : os.seekable with
            | true => rfl
            | false => rw [ha] at hc; exact (hc (by simp)).elim
      · show p.startPos + bs.length = cfg.p0 + (p.dst.sent ++ bs).length
        rw [List.length_append, k5]; omega
      · show (if p.dst.indep then p.dst.filePos else at' os p + bs.length) = cfg.pos0 + (p.dst.sent ++ bs).length
        unfold at'
        rw [k4, ha, hk, List.length_append, k6 ha hk]
        simp; omega
    · have e : cfg.dest (emit os bs p).dst = cfg.dest p.dst ++ bs := by
        unfold FdCfg.dest; rw [hs]
        show List.replicate _ _ ++ (p.dst.sent ++ bs) = (List.replicate _ _ ++ p.dst.sent) ++ bs
        rw [List.append_assoc]
      rw [e, ← hd, overlay_end]
  | false =>
    have hd : ∀ d : FdW, cfg.dest d = d.content := fun d => by unfold FdCfg.dest; rw [hs]; rfl
    have hat : at' os p = p.startPos := by
      unfold at'
      rcases h.file hs ho with h1 | h1 | h1
      · rw [if_pos h1.1]
      · rw [h1.1, h1.2.1, h1.2.2.1]; exact h1.2.2.2 hr
      · rw [h1.1, h1.2.1, h1.2.2.1]; exact h1.2.2.2.1.symm
    constructor
    · refine ⟨h.lazy, fun h => (by rw [hs] at h; cases h), fun _ _ => ?_⟩
      rcases h.file hs ho with h1 | h1 | h1
      · exact .inl h1
      · refine .inr (.inl ⟨h1.1, h1.2.1, h1.2.2.1, fun _ => ?_⟩)
        show (if p.dst.indep then p.dst.filePos else at' os p + bs.length) = p.startPos + bs.length
        rw [h1.1, hat]; rfl
      · refine .inr (.inr ⟨h1.1, h1.2.1, h1.2.2.1, ?_, h1.2.2.2.2⟩)
        show p.startPos + bs.length = (overlay p.dst.content (at' os p) bs).length
        rw [overlay_length hb, hat, h1.2.2.2.1]; omega
    · rw [hd, hd]
      show overlay p.dst.content (at' os p) bs = _
      rw [hat]

theorem writeLoop_spec {fuel : Nat} {bs : Bytes} (h : FdInv os cfg p) (ho : p.ok = true) (hr : p.dst.readMode = false) (hb : bs ≠ [])
    (hf : bs.length ≤ fuel) : BWrites cfg.dest (FdInv os cfg) bs p (writeLoop os fuel bs p) := by
  induction fuel generalizing bs p with
  | zero => exact absurd (List.eq_nil_of_length_eq_zero (by omega)) hb
  | succ fuel ih =>
    unfold writeLoop
    cases hw : os.write p.dst.clock with
    | none =>
      exact ⟨fail_inv (tick_inv h), ⟨0, Nat.zero_le _, by simp; rfl⟩, fun h => (Bool.false_ne_true h).elim, fun _ => rfl, fun h => (by rw [ho] at h; cases h)⟩
    | some more =>
      dsimp only
      have hl := List.length_pos_iff.2 hb
      generalize hk : min (min bs.length (2 ^ 30)) (more + 1) = k
      have hk1 : 0 < k ∧ k ≤ bs.length := by omega
      have ht : (bs.take k).length = k := by rw [List.length_take]; omega
      have hne : bs.take k ≠ [] := fun h => by rw [h] at ht; simp at ht; omega
      obtain ⟨e1, e2⟩ := emit_spec h ho hr (bs.take k) hne
      have e3 : cfg.dest (tick (emit os (bs.take k) p)).dst = overlay (cfg.dest p.dst) p.startPos (bs.take k) := e2
      have e4 := tick_inv e1
      have e5 : (tick (emit os (bs.take k) p)).ok = true := ho
      have e6 : (tick (emit os (bs.take k) p)).dst.readMode = false := hr
      have e7 : (tick (emit os (bs.take k) p)).startPos = p.startPos + k := by show p.startPos + (bs.take k).length = _; rw [ht]
      generalize tick (emit os (bs.take k) p) = p' at *
      by_cases hd : bs.drop k = []
      · rw [if_pos hd]
        have hbs : bs.take k = bs := by
          have := List.take_append_drop k bs; rw [hd, List.append_nil] at this; exact this
        rw [hbs] at e3 ht
        exact ⟨e4, ⟨bs.length, Nat.le_refl _, by rw [List.take_length]; exact e3⟩, fun _ => ⟨ho, e5, e3, by show p'.startPos = _; omega⟩,
          fun h => (Bool.false_ne_true h.symm).elim, fun h => (by rw [ho] at h; cases h)⟩
      · rw [if_neg hd]
        obtain ⟨i1, ⟨k', hk', i2⟩, i3, i4, i5⟩ := ih e4 e5 e6 hd (by rw [List.length_drop]; omega)
        have hov : ∀ x, overlay (overlay (cfg.dest p.dst) p.startPos (bs.take k)) (p.startPos + k) x = overlay (cfg.dest p.dst) p.startPos (bs.take k ++ x) := fun x => by
          have := overlay_append (cfg.dest p.dst) p.startPos (bs.take k) x
          rw [ht] at this; exact this
        rw [e3, e7, hov] at i2 i3
        rw [List.take_append_drop] at i3
        rw [List.length_drop] at hk' i3
        refine ⟨i1, ⟨k + k', by omega, ?_⟩, fun ht => ?_, i4, fun h => (by rw [ho] at h; cases h)⟩
        · rw [i2, List.take_add]
        · obtain ⟨j1, j2, j3, j4⟩ := i3 ht
          exact ⟨ho, j2, j3, by omega⟩

theorem writeInternal_spec {bs : Bytes} (h : FdInv os cfg p) (ho : p.ok = true) (hb : bs ≠ []) :
    BWrites cfg.dest (FdInv os cfg) bs p (writeInternal os bs p) := by
  obtain ⟨w1, w2, w3, w4, w5⟩ := writeMode_spec h
  unfold writeInternal
  generalize writeMode os p = r at *
  dsimp only
  have h0 : ∀ q : WPhys FdW, FdInv os cfg q → cfg.dest q.dst = cfg.dest p.dst → q.ok = false → BWrites cfg.dest (FdInv os cfg) bs p (false, q) := fun q h1 h2 h3 =>
    ⟨h1, ⟨0, Nat.zero_le _, by simp; exact h2⟩, fun h => (Bool.false_ne_true h).elim, fun _ => h3, fun h => (by rw [ho] at h; cases h)⟩
  by_cases hr : r.1 = false
  · rw [if_pos hr]; exact h0 _ w1 w2 (w4 hr)
  · rw [if_neg hr]
    obtain ⟨k1, k2, k3⟩ := w3 ((Bool.not_eq_false _).mp hr)
    by_cases hc : Rdr.fdMaxPos - r.2.startPos < bs.length
    · rw [if_pos hc]; exact h0 _ (fail_inv w1) w2 rfl
    · rw [if_neg hc]
      obtain ⟨i1, i2, i3, i4, i5⟩ := writeLoop_spec w1 (k2.trans ho) k3 hb (Nat.le_refl _)
      rw [w2, k1] at i2 i3
      rw [k2] at i3
      exact ⟨i1, i2, i3, i4, fun h => (by rw [ho] at h; cases h)⟩

theorem flushBehind_spec {bs : Bytes} (h : FdInv os cfg p) : BWrites cfg.dest (FdInv os cfg) bs p (flushBehind os bs p) := by
  obtain ⟨w1, w2, w3, w4, w5⟩ := writeMode_spec h
  unfold flushBehind
  generalize writeMode os p = r at *
  dsimp only
  by_cases hr : r.1 = false
  · rw [if_pos hr]
    exact ⟨w1, ⟨0, Nat.zero_le _, by simp; exact w2⟩, fun h => (Bool.false_ne_true h).elim, fun _ => w4 hr, fun _ => ⟨w4 hr, w2⟩⟩
  · rw [if_neg hr]
    obtain ⟨k1, k2, k3⟩ := w3 ((Bool.not_eq_false _).mp hr)
    unfold BDst.defaultFlush
    by_cases ho : r.2.ok = false
    · rw [if_pos ho]
      exact ⟨w1, ⟨0, Nat.zero_le _, by simp; exact w2⟩, fun h => (Bool.false_ne_true h).elim, fun _ => ho, fun _ => ⟨ho, w2⟩⟩
    · rw [if_neg ho]
      have ho := (Bool.not_eq_false _).mp ho
      by_cases hb : bs = []
      · rw [if_pos hb]
        subst hb
        exact ⟨w1, ⟨0, Nat.zero_le _, by simp; exact w2⟩, fun _ => ⟨k2 ▸ ho, ho, by rw [overlay_nil]; exact w2, k1⟩, fun h => (Bool.false_ne_true h.symm).elim,
          fun h => ⟨w5 h, w2⟩⟩
      · rw [if_neg hb]
        obtain ⟨i1, i2, i3, i4, i5⟩ := writeInternal_spec w1 ho hb
        rw [w2, k1] at i2 i3
        rw [k2] at i3
        rw [k2] at ho
        exact ⟨i1, i2, i3, i4, fun h => (by rw [ho] at h; cases h)⟩

theorem noReadMode_seek (q : Nat) (h : FdInv os cfg p) (ho : p.ok = true) (hs : cfg.stream = false) (hq : os.append = true → q = p.dst.content.length) :
    FdInv os cfg (seekInternal os q (noReadMode p)).2 ∧ cfg.dest (seekInternal os q (noReadMode p)).2.dst = cfg.dest p.dst ∧
    ((seekInternal os q (noReadMode p)).1 = true → (seekInternal os q (noReadMode p)).2.ok = true ∧ (seekInternal os q (noReadMode p)).2.startPos = q) ∧
    ((seekInternal os q (noReadMode p)).1 = false → (seekInternal os q (noReadMode p)).2.ok = false) := by
  unfold seekInternal noReadMode
  dsimp only
  by_cases hi : p.dst.indep = true
  · rw [if_pos hi]
    refine ⟨⟨h.lazy, fun h => (by rw [hs] at h; cases h), fun _ _ => ?_⟩, rfl, fun _ => ⟨ho, rfl⟩, fun h => (Bool.false_ne_true h.symm).elim⟩
    rcases h.file hs ho with h1 | h1 | h1
    · exact .inl h1
    · exact absurd (h1.1.symm.trans hi) Bool.false_ne_true
    · exact absurd (h1.1.symm.trans hi) Bool.false_ne_true
  · rw [if_neg hi]
    by_cases hc : os.seekable = false ∨ os.succeeds p.dst.clock = false
    · rw [if_pos hc]
      exact ⟨⟨h.lazy, fun h => (by rw [hs] at h; cases h), fun _ h => (Bool.false_ne_true h).elim⟩, rfl, fun h => (Bool.false_ne_true h).elim, fun _ => rfl⟩
    · rw [if_neg hc]
      refine ⟨⟨h.lazy, fun h => (by rw [hs] at h; cases h), fun _ _ => ?_⟩, rfl, fun _ => ⟨ho, rfl⟩, fun h => (Bool.false_ne_true h.symm).elim⟩
      rcases h.file hs ho with h1 | h1 | h1
      · exact (hi h1.1).elim
      · exact .inr (.inl ⟨h1.1, h1.2.1, h1.2.2.1, fun _ => rfl⟩)
      · exact .inr (.inr ⟨h1.1, h1.2.1, h1.2.2.1, hq h1.2.2.1, h1.2.2.2.2⟩)


theorem unsupported_spec (h : FdInv os cfg p) : FdInv os cfg (unsupported p) ∧ (unsupported p).dst = p.dst ∧ (unsupported p).ok = false := by
  unfold unsupported
  split
  · exact ⟨fail_inv h, rfl, rfl⟩
  · exact ⟨h, rfl, (Bool.not_eq_true _).mp ‹_›⟩

theorem not_append (h : FdInv os cfg p) (ho : p.ok = true) (hs : cfg.stream = false) (hr : p.dst.ra = some true) : os.append = false := by
  rcases h.file hs ho with h1 | h1 | h1
  · exact h1.2
  · exact h1.2.2.1
  · rw [hr] at h1; cases h1.2.2.2.2

theorem dest_file (hs : cfg.stream = false) (d : FdW) : cfg.dest d = d.content := by unfold FdCfg.dest; rw [hs]; rfl

theorem seekBehind_spec (q : Nat) (h : FdInv os cfg p) : FdInv os cfg (seekBehind os q p).2 ∧ cfg.dest (seekBehind os q p).2.dst = cfg.dest p.dst ∧
    ((seekBehind os q p).1 = true → p.ok = true ∧ (seekBehind os q p).2.ok = true ∧ (seekBehind os q p).2.startPos = q ∧
      q ≤ max (cfg.dest p.dst).length p.startPos) ∧
    ((seekBehind os q p).1 = false → (seekBehind os q p).2.ok = false ∨
      ((seekBehind os q p).2.startPos = (cfg.dest p.dst).length ∧ (cfg.dest p.dst).length < q)) ∧
    (p.ok = false → (seekBehind os q p).2.ok = false) := by
  obtain ⟨r1, r2, r3, r4, r5⟩ := randomAccess_spec h
  unfold seekBehind
  generalize randomAccess os p = r at *
  dsimp only
  by_cases hr : r.1 = false
  · rw [if_pos hr]
    obtain ⟨u1, u2, u3⟩ := unsupported_spec r1
    exact ⟨u1, by rw [u2, r2], fun h => (Bool.false_ne_true h).elim, fun _ => .inl u3, fun _ => u3⟩
  · rw [if_neg hr]
    obtain ⟨t1, t2, -, t3⟩ := r4 ((Bool.not_eq_false _).mp hr)
    by_cases ho : r.2.ok = false
    · rw [if_pos ho]
      exact ⟨r1, r2, fun h => (Bool.false_ne_true h).elim, fun _ => .inl ho, fun _ => ho⟩
    · rw [if_neg ho]
      have ho := (Bool.not_eq_false _).mp ho
      have hpo : p.ok = true := t2 ▸ ho
      have hna := not_append r1 ho t1 t3
      have hd := r2
      rw [dest_file t1] at hd
      rw [← r3]
      have e1 : (noReadMode r.2).startPos = r.2.startPos := rfl
      have e2 : (noReadMode r.2).dst.content = cfg.dest p.dst := hd
      have e3 : ∀ x, seekInternal os x (tick (noReadMode r.2)) = seekInternal os x (noReadMode (tick r.2)) := fun _ => rfl
      rw [e1, e2]
      by_cases hq : r.2.startPos < q
      · rw [if_pos hq]
        by_cases hc : os.succeeds (noReadMode r.2).dst.clock = false
        · rw [if_pos hc]
          refine ⟨⟨r1.lazy, fun h => (by rw [t1] at h; cases h), fun _ h => (Bool.false_ne_true h).elim⟩, r2, fun h => (Bool.false_ne_true h).elim, fun _ => .inl rfl, fun _ => rfl⟩
        · rw [if_neg hc]
          by_cases hl : (cfg.dest p.dst).length < q
          · rw [if_pos hl, e3]
            obtain ⟨s1, s2, s3, s4⟩ := noReadMode_seek (cfg.dest p.dst).length (tick_inv r1) ho t1 (fun h => by rw [hna] at h; cases h)
            generalize seekInternal os (cfg.dest p.dst).length (noReadMode (tick r.2)) = k at *
            refine ⟨s1, s2.trans r2, fun h => (Bool.false_ne_true h).elim, fun _ => ?_, fun h => (by rw [hpo] at h; cases h)⟩
            cases hk : k.1 with
            | true => exact .inr ⟨(s3 hk).2, hl⟩
            | false => exact .inl (s4 hk)
          · rw [if_neg hl, e3]
            obtain ⟨s1, s2, s3, s4⟩ := noReadMode_seek q (tick_inv r1) ho t1 (fun h => by rw [hna] at h; cases h)
            generalize seekInternal os q (noReadMode (tick r.2)) = k at *
            exact ⟨s1, s2.trans r2, fun h => ⟨hpo, (s3 h).1, (s3 h).2, by omega⟩, fun h => .inl (s4 h), fun h => (by rw [hpo] at h; cases h)⟩
      · rw [if_neg hq]
        obtain ⟨s1, s2, s3, s4⟩ := noReadMode_seek q r1 ho t1 (fun h => by rw [hna] at h; cases h)
        generalize seekInternal os q (noReadMode r.2) = k at *
        exact ⟨s1, s2.trans r2, fun h => ⟨hpo, (s3 h).1, (s3 h).2, by omega⟩, fun h => .inl (s4 h), fun h => (by rw [hpo] at h; cases h)⟩

theorem sizeBehind_spec (h : FdInv os cfg p) : FdInv os cfg (sizeBehind os p).2 ∧ cfg.dest (sizeBehind os p).2.dst = cfg.dest p.dst ∧
    (∀ n, (sizeBehind os p).1 = some n → n = (cfg.dest p.dst).length ∧ p.ok = true ∧ (sizeBehind os p).2.ok = true ∧
      (sizeBehind os p).2.startPos = p.startPos) ∧
    ((sizeBehind os p).1 = none → (sizeBehind os p).2.ok = false) ∧
    (p.ok = false → (sizeBehind os p).2.ok = false) := by
  obtain ⟨r1, r2, r3, r4, r5⟩ := randomAccess_spec h
  unfold sizeBehind
  generalize randomAccess os p = r at *
  dsimp only
  by_cases hr : r.1 = false
  · rw [if_pos hr]
    obtain ⟨u1, u2, u3⟩ := unsupported_spec r1
    exact ⟨u1, by rw [u2, r2], (fun n h => by cases h), fun _ => u3, fun _ => u3⟩
  · rw [if_neg hr]
    obtain ⟨t1, t2, -, t3⟩ := r4 ((Bool.not_eq_false _).mp hr)
    by_cases ho : r.2.ok = false
    · rw [if_pos ho]
      exact ⟨r1, r2, (fun n h => by cases h), fun _ => ho, fun _ => ho⟩
    · rw [if_neg ho]
      have ho := (Bool.not_eq_false _).mp ho
      have hpo : p.ok = true := t2 ▸ ho
      by_cases hc : os.succeeds r.2.dst.clock = false
      · rw [if_pos hc]
        exact ⟨fail_inv (tick_inv r1), r2, (fun n h => by cases h), fun _ => rfl, fun _ => rfl⟩
      · rw [if_neg hc]
        refine ⟨tick_inv r1, r2, fun n hn => ?_, (fun h => by cases h), fun h => (by rw [hpo] at h; cases h)⟩
        cases hn
        refine ⟨?_, hpo, ho, r3⟩
        rw [← r2, dest_file t1]

theorem resize_length (n : Nat) (c : Bytes) : (resize n c).length = n := by
  unfold resize; rw [List.length_append, List.length_take, List.length_replicate]; omega

/-- `TruncateInternal()` followed by `SeekInternal()`. -/
theorem truncate_seek (n : Nat) (h : FdInv os cfg p) (ho : p.ok = true) (hs : cfg.stream = false) (r : Bool × WPhys FdW)
    (hr : r = if (truncateInternal os n (noReadMode p)).1 = false then (false, (truncateInternal os n (noReadMode p)).2)
      else seekInternal os n (truncateInternal os n (noReadMode p)).2) :
    FdInv os cfg r.2 ∧ (cfg.dest r.2.dst = cfg.dest p.dst ∨ cfg.dest r.2.dst = resize n (cfg.dest p.dst)) ∧
    (r.1 = true → cfg.dest r.2.dst = resize n (cfg.dest p.dst) ∧ r.2.startPos = n ∧ r.2.ok = true) ∧
    (r.1 = false → r.2.ok = false) := by
  unfold truncateInternal at hr
  by_cases hc : os.succeeds (noReadMode p).dst.clock = false
  · rw [if_pos hc] at hr
    subst hr
    exact ⟨⟨h.lazy, fun h => (by rw [hs] at h; cases h), fun _ h => (Bool.false_ne_true h).elim⟩, .inl rfl, fun h => (Bool.false_ne_true h).elim, fun _ => rfl⟩
  · rw [if_neg hc] at hr
    dsimp only at hr
    rw [if_neg (fun h => Bool.false_ne_true h.symm)] at hr
    unfold seekInternal noReadMode tick at hr
    dsimp only at hr
    rw [dest_file hs, dest_file hs]
    by_cases hi : p.dst.indep = true
    · rw [if_pos hi] at hr
      subst hr
      refine ⟨⟨h.lazy, fun h => (by rw [hs] at h; cases h), fun _ _ => ?_⟩, .inr rfl, fun _ => ⟨rfl, rfl, ho⟩, fun h => (Bool.false_ne_true h.symm).elim⟩
      rcases h.file hs ho with h1 | h1 | h1
      · exact .inl h1
      · exact absurd (h1.1.symm.trans hi) Bool.false_ne_true
      · exact absurd (h1.1.symm.trans hi) Bool.false_ne_true
    · rw [if_neg hi] at hr
      by_cases hk : os.seekable = false ∨ os.succeeds (p.dst.clock + 1) = false
      · rw [if_pos hk] at hr
        subst hr
        exact ⟨⟨h.lazy, fun h => (by rw [hs] at h; cases h), fun _ h => (Bool.false_ne_true h).elim⟩, .inr rfl, fun h => (Bool.false_ne_true h).elim, fun _ => rfl⟩
      · rw [if_neg hk] at hr
        subst hr
        refine ⟨⟨h.lazy, fun h => (by rw [hs] at h; cases h), fun _ _ => ?_⟩, .inr rfl, fun _ => ⟨rfl, rfl, ho⟩, fun h => (Bool.false_ne_true h.symm).elim⟩
        rcases h.file hs ho with h1 | h1 | h1
        · exact (hi h1.1).elim
        · exact .inr (.inl ⟨h1.1, h1.2.1, h1.2.2.1, fun _ => rfl⟩)
        · exact .inr (.inr ⟨h1.1, h1.2.1, h1.2.2.1, (resize_length _ _).symm, h1.2.2.2.2⟩)

theorem truncateBehind_spec (n : Nat) (h : FdInv os cfg p) (hs : cfg.stream = false) : FdInv os cfg (truncateBehind os n p).2 ∧
    (cfg.dest (truncateBehind os n p).2.dst = cfg.dest p.dst ∨
      (n ≤ max (cfg.dest p.dst).length p.startPos ∧ cfg.dest (truncateBehind os n p).2.dst = resize n (cfg.dest p.dst))) ∧
    ((truncateBehind os n p).1 = true → n ≤ max (cfg.dest p.dst).length p.startPos ∧ cfg.dest (truncateBehind os n p).2.dst = resize n (cfg.dest p.dst) ∧
      (truncateBehind os n p).2.startPos = n ∧ p.ok = true ∧ (truncateBehind os n p).2.ok = true) ∧
    ((truncateBehind os n p).1 = false → (truncateBehind os n p).2.ok = false ∨
      (cfg.dest (truncateBehind os n p).2.dst = cfg.dest p.dst ∧ (truncateBehind os n p).2.startPos = (cfg.dest p.dst).length ∧
        (cfg.dest p.dst).length < n)) ∧
    (p.ok = false → (truncateBehind os n p).2.ok = false ∧ cfg.dest (truncateBehind os n p).2.dst = cfg.dest p.dst) := by
  unfold truncateBehind
  by_cases ho : p.ok = false
  · rw [if_pos ho]
    exact ⟨h, .inl rfl, fun h => (Bool.false_ne_true h).elim, fun _ => .inl ho, fun _ => ⟨ho, rfl⟩⟩
  · rw [if_neg ho]
    have ho := (Bool.not_eq_false _).mp ho
    have hd := dest_file hs p.dst
    have e1 : (noReadMode p).startPos = p.startPos := rfl
    have e2 : (noReadMode p).dst.content = cfg.dest p.dst := hd.symm
    dsimp only
    rw [e1, e2]
    by_cases hn : p.startPos ≤ n
    · rw [if_pos hn]
      by_cases hc : os.succeeds (noReadMode p).dst.clock = false
      · rw [if_pos hc]
        exact ⟨⟨h.lazy, fun h => (by rw [hs] at h; cases h), fun _ h => (Bool.false_ne_true h).elim⟩, .inl rfl, fun h => (Bool.false_ne_true h).elim, fun _ => .inl rfl, fun h => (by rw [ho] at h; cases h)⟩
      · rw [if_neg hc]
        by_cases hl : (cfg.dest p.dst).length < n
        · rw [if_pos hl]
          rw [show seekInternal os (cfg.dest p.dst).length (tick (noReadMode p)) = seekInternal os (cfg.dest p.dst).length (noReadMode (tick p)) from rfl]
          obtain ⟨s1, s2, s3, s4⟩ := noReadMode_seek (cfg.dest p.dst).length (tick_inv h) ho hs (fun _ => by rw [hd]; rfl)
          generalize seekInternal os (cfg.dest p.dst).length (noReadMode (tick p)) = k at *
          refine ⟨s1, .inl s2, fun h => (Bool.false_ne_true h).elim, fun _ => ?_, fun h => (by rw [ho] at h; cases h)⟩
          cases hk : k.1 with
          | true => exact .inr ⟨s2, (s3 hk).2, hl⟩
          | false => exact .inl (s4 hk)
        · rw [if_neg hl]
          obtain ⟨s1, s2, s3, s4⟩ := truncate_seek n (tick_inv h) ho hs _ rfl
          rw [show noReadMode (tick p) = tick (noReadMode p) from rfl] at *
          generalize (if (truncateInternal os n (tick (noReadMode p))).1 = false then (false, (truncateInternal os n (tick (noReadMode p))).2)
            else seekInternal os n (truncateInternal os n (tick (noReadMode p))).2) = k at *
          exact ⟨s1, s2.imp id (⟨by omega, ·⟩), fun h => ⟨by omega, (s3 h).1, (s3 h).2.1, ho, (s3 h).2.2⟩, fun h => .inl (s4 h), fun h => (by rw [ho] at h; cases h)⟩
    · rw [if_neg hn]
      obtain ⟨s1, s2, s3, s4⟩ := truncate_seek n h ho hs _ rfl
      generalize (if (truncateInternal os n (noReadMode p)).1 = false then (false, (truncateInternal os n (noReadMode p)).2)
        else seekInternal os n (truncateInternal os n (noReadMode p)).2) = k at *
      exact ⟨s1, s2.imp id (⟨by omega, ·⟩), fun h => ⟨by omega, (s3 h).1, (s3 h).2.1, ho, (s3 h).2.2⟩, fun h => .inl (s4 h), fun h => (by rw [ho] at h; cases h)⟩

theorem readModeBehind_spec (q : Nat) (h : FdInv os cfg p) : FdInv os cfg (readModeBehind os q p).2 ∧ cfg.dest (readModeBehind os q p).2.dst = cfg.dest p.dst ∧
    ((readModeBehind os q p).1 = true → p.ok = true ∧ (readModeBehind os q p).2.ok = true ∧ (readModeBehind os q p).2.startPos = p.startPos) ∧
    ((readModeBehind os q p).1 = false → (readModeBehind os q p).2.ok = false) ∧
    (p.ok = false → (readModeBehind os q p).2.ok = false) := by
  obtain ⟨r1, r2, r3, r4, r5⟩ := supportsReadMode_spec h
  unfold readModeBehind
  generalize supportsReadMode os p = r at *
  dsimp only
  by_cases hr : r.1 = false
  · rw [if_pos hr]
    obtain ⟨u1, u2, u3⟩ := unsupported_spec r1
    exact ⟨u1, by rw [u2, r2], fun h => (Bool.false_ne_true h).elim, fun _ => u3, fun _ => u3⟩
  · rw [if_neg hr]
    obtain ⟨t1, t2⟩ := r4 ((Bool.not_eq_false _).mp hr)
    by_cases ho : r.2.ok = false
    · rw [if_pos ho]
      exact ⟨r1, r2, fun h => (Bool.false_ne_true h).elim, fun _ => ho, fun _ => ho⟩
    · rw [if_neg ho]
      have ho := (Bool.not_eq_false _).mp ho
      have hpo : p.ok = true := t1 ▸ ho
      have hs := t2 hpo
      refine ⟨⟨r1.lazy, fun h => (by rw [hs] at h; cases h), fun _ _ => ?_⟩, r2, fun _ => ⟨hpo, ho, r3⟩, fun h => (Bool.false_ne_true h.symm).elim, fun h => (by rw [hpo] at h; cases h)⟩
      rcases r1.file hs ho with h1 | h1 | h1
      · exact .inl h1
      · exact .inr (.inl ⟨h1.1, h1.2.1, h1.2.2.1, fun h => (Bool.false_ne_true h.symm).elim⟩)
      · exact .inr (.inr h1)

theorem dst_lawful (os : WOs) (cfg : FdCfg) (o : Rdr.BufOpts) (junk : Nat → Nat → UInt8) :
    (dst os o junk).Lawful cfg.dest (cfg.stream = false) (FdInv os cfg) where
  fail _ h := fail_inv h
  writeInternal _ _ h ho hb := writeInternal_spec h ho hb
  flushBehind _ _ _ h := flushBehind_spec h
  doneBehind bs p h := by
    obtain ⟨h1, h2, h3, h4, h5⟩ := flushBehind_spec (bs := bs) h
    refine ⟨h1, h2, fun ho => ?_, fun ho => ho, h5⟩
    cases hr : (flushBehind os bs p).1 with
    | true => exact h3 hr
    | false =>
      have := h4 hr
      rw [show (flushBehind os bs p).2.ok = true from ho] at this; cases this
  seekBehind q _ h _ := seekBehind_spec q h
  sizeBehind _ h := sizeBehind_spec h
  truncateBehind hT n _ h := truncateBehind_spec n h hT
  readModeBehind q _ h := readModeBehind_spec q h
  randomAccess _ h := by
    obtain ⟨h1, h2, h3, h4, h5⟩ := randomAccess_spec h
    exact ⟨h1, h2, h3, fun ht => ⟨(h4 ht).1, (h4 ht).2.1, (h4 ht).2.2.1⟩, h5⟩


theorem truncateInternal_spec (n : Nat) (h : FdInv os cfg p) (ho : p.ok = true) (hs : cfg.stream = false) (hna : os.append = false) :
    FdInv os cfg (truncateInternal os n p).2 ∧
    ((truncateInternal os n p).1 = true → (truncateInternal os n p).2.ok = true ∧ (truncateInternal os n p).2.startPos = p.startPos ∧
      (truncateInternal os n p).2.dst.content = resize n p.dst.content) ∧
    ((truncateInternal os n p).1 = false → (truncateInternal os n p).2.ok = false ∧ (truncateInternal os n p).2.dst.content = p.dst.content) := by
  unfold truncateInternal
  by_cases hc : os.succeeds p.dst.clock = false
  · rw [if_pos hc]
    exact ⟨fail_inv (tick_inv h), fun h => (Bool.false_ne_true h).elim, fun _ => ⟨rfl, rfl⟩⟩
  · rw [if_neg hc]
    refine ⟨⟨h.lazy, fun h => (by rw [hs] at h; cases h), fun _ _ => ?_⟩, fun _ => ⟨ho, rfl, rfl⟩, fun h => (Bool.false_ne_true h.symm).elim⟩
    rcases h.file hs ho with h1 | h1 | h1
    · exact .inl h1
    · exact .inr (.inl h1)
    · rw [hna] at h1; cases h1.2.2.1

theorem resize_take_overlay (c : Bytes) (p n : Nat) (hn : 0 < n) (hp : p < c.length) (hq : c.length ≤ p + n) :
    resize (p + n) (resize p c) = overlay c p (List.replicate n 0) := by
  have h1 : resize p c = c.take p := by unfold resize; rw [show p - c.length = 0 by omega]; simp
  have hne : List.replicate n (0 : UInt8) ≠ [] := by intro h; rw [List.replicate_eq_nil_iff] at h; omega
  rw [h1, overlay, if_neg hne, resize, List.take_of_length_le (by rw [List.length_take]; omega), List.length_take, List.length_replicate,
    List.drop_eq_nil_of_le hq, List.append_nil, show p - c.length = 0 by omega, show p + n - min p c.length = n by omega]
  simp

theorem resize_overlay (c : Bytes) (p n : Nat) (hn : 0 < n) (hp : c.length ≤ p) :
    resize (p + n) c = overlay c p (List.replicate n 0) := by
  have hne : List.replicate n (0 : UInt8) ≠ [] := by intro h; rw [List.replicate_eq_nil_iff] at h; omega
  rw [overlay, if_neg hne, resize, List.take_of_length_le (by omega), List.take_of_length_le hp, List.length_replicate,
    List.drop_eq_nil_of_le (by omega), List.append_nil, List.append_assoc, List.replicate_append_replicate]
  congr 2; omega

/-- Extending the file with zeros by `ftruncate()`. -/
theorem extend_spec (n : Nat) (hn : 0 < n) (h : FdInv os cfg p) (ho : p.ok = true) (hs : cfg.stream = false) (hna : os.append = false)
    (hq : p.dst.content.length ≤ p.startPos + n) :
    FdInv os cfg (extend os n p.dst.content.length p).2 ∧
    ((extend os n p.dst.content.length p).1 = true → (extend os n p.dst.content.length p).2.ok = true ∧
      (extend os n p.dst.content.length p).2.startPos = p.startPos + n ∧
      (extend os n p.dst.content.length p).2.dst.content = overlay p.dst.content p.startPos (List.replicate n 0)) ∧
    ((extend os n p.dst.content.length p).1 = false → (extend os n p.dst.content.length p).2.ok = false) ∧
    ((extend os n p.dst.content.length p).2.dst.content = p.dst.content ∨
      (extend os n p.dst.content.length p).2.dst.content = p.dst.content.take p.startPos ∨
      (extend os n p.dst.content.length p).2.dst.content = overlay p.dst.content p.startPos (List.replicate n 0)) := by
  unfold extend
  generalize hr : (if p.startPos < p.dst.content.length then truncateInternal os p.startPos p else (true, p)) = r
  have key : FdInv os cfg r.2 ∧ (r.1 = true → r.2.ok = true ∧ r.2.startPos = p.startPos ∧
      (r.2.dst.content = p.dst.content ∨ r.2.dst.content = p.dst.content.take p.startPos) ∧
      resize (p.startPos + n) r.2.dst.content = overlay p.dst.content p.startPos (List.replicate n 0)) ∧
      (r.1 = false → r.2.ok = false ∧ r.2.dst.content = p.dst.content) := by
    by_cases hc : p.startPos < p.dst.content.length
    · rw [if_pos hc] at hr
      obtain ⟨t1, t2, t3⟩ := truncateInternal_spec p.startPos h ho hs hna
      rw [hr] at t1 t2 t3
      refine ⟨t1, fun ht => ?_, t3⟩
      obtain ⟨k1, k2, k3⟩ := t2 ht
      have e : resize p.startPos p.dst.content = p.dst.content.take p.startPos := by
        unfold resize; rw [show p.startPos - p.dst.content.length = 0 by omega]; simp
      exact ⟨k1, k2, .inr (k3.trans e), by rw [k3]; exact resize_take_overlay _ _ _ hn hc hq⟩
    · have hc' : p.dst.content.length ≤ p.startPos := Nat.le_of_not_lt hc
      rw [if_neg hc] at hr
      subst hr
      exact ⟨h, fun _ => ⟨ho, rfl, .inl rfl, resize_overlay _ _ _ hn hc'⟩, fun h => (Bool.false_ne_true h.symm).elim⟩
  clear hr
  obtain ⟨k1, k2, k3⟩ := key
  dsimp only
  by_cases hr : r.1 = false
  · rw [if_pos hr]
    exact ⟨k1, fun h => (Bool.false_ne_true h).elim, fun _ => (k3 hr).1, .inl (k3 hr).2⟩
  · rw [if_neg hr]
    obtain ⟨l1, l2, l3, l4⟩ := k2 ((Bool.not_eq_false _).mp hr)
    obtain ⟨t1, t2, t3⟩ := truncateInternal_spec (p.startPos + n) k1 l1 hs hna
    rw [l4] at t2
    generalize truncateInternal os (p.startPos + n) r.2 = r' at *
    by_cases hr' : r'.1 = false
    · rw [if_pos hr']
      refine ⟨t1, fun h => (Bool.false_ne_true h).elim, fun _ => (t3 hr').1, ?_⟩
      show r'.2.dst.content = _ ∨ r'.2.dst.content = _ ∨ _
      rw [(t3 hr').2]
      rcases l3 with h | h
      · exact .inl h
      · exact .inr (.inl h)
    · rw [if_neg hr']
      obtain ⟨m1, m2, m3⟩ := t2 ((Bool.not_eq_false _).mp hr')
      obtain ⟨s1, s2, s3, s4⟩ := seekInternal_spec (p.startPos + n) t1 m1 hs (fun h => by rw [hna] at h; cases h)
      rw [dest_file hs, dest_file hs, m3] at s2
      generalize seekInternal os (p.startPos + n) r'.2 = k at *
      exact ⟨s1, fun h => ⟨(s3 h).1, (s3 h).2, s2⟩, s4, .inr (.inr s2)⟩

theorem fillSlow_spec {o : Rdr.BufOpts} {junk : Nat → Nat → UInt8} {b : BW FdW} (h : BWInv (dst os o junk) (FdInv os cfg) b) (n : Nat) (c : UInt8) (hn : 0 < n) :
    BW.Post (dst os o junk) cfg.dest (FdInv os cfg) (List.replicate n c) b (fillSlow os (dst os o junk) n c b) ∧
    ((fillSlow os (dst os o junk) n c b).1 = true → b.phys.ok = true) := by
  have L := dst_lawful os cfg o junk
  unfold fillSlow
  by_cases hc : c ≠ 0
  · rw [if_pos hc]; exact BW.fillSlow_spec L h n c hn
  · rw [if_neg hc]
    have hc : c = 0 := Decidable.of_not_not hc
    subst hc
    dsimp only
    have hra : (b.randomAccess (dst os o junk)).1 = true → (b.randomAccess (dst os o junk)).2.phys.dst.ra = some true := fun ht => by
      unfold BW.randomAccess
      rw [BW.after_phys]
      exact ((randomAccess_spec h.phys).2.2.2.1 ht).2.2.2
    obtain ⟨r1, r2, r3, r4, r5, r6, r7⟩ := BW.randomAccess_spec L h
    generalize b.randomAccess (dst os o junk) = r at *
    -- the effect of `SupportsRandomAccess()` on the writer
    have hpost : ∀ {bs : Bytes} {x : Bool × BW FdW}, BW.Post (dst os o junk) cfg.dest (FdInv os cfg) bs r.2 x → (x.1 = true → r.2.phys.ok = true) →
        BW.Post (dst os o junk) cfg.dest (FdInv os cfg) bs b x ∧ (x.1 = true → b.phys.ok = true) := fun {bs x} hx hxo => by
      obtain ⟨a1, a2, a3, a4, a5⟩ := hx
      have hbo : r.2.phys.ok = true → b.phys.ok = true := fun ho => by
        cases hb : b.phys.ok with
        | true => rfl
        | false => rw [r6 hb] at ho; cases ho
      have hv : r.2.phys.ok = true → r.2.view cfg.dest = b.view cfg.dest ∧ r.2.pos = b.pos := fun ho => by
        refine ⟨?_, (r7 ho).2.1⟩
        unfold BW.view; rw [(r7 ho).1, r3, r4]
      refine ⟨⟨a1, fun ht => ?_, a3, fun ho => ?_, ?_⟩, fun ht => hbo (hxo ht)⟩
      · obtain ⟨b1, b2, b3⟩ := a2 ht
        have ho := hxo ht
        have e1 : (BW.ops (dst os o junk)).pos r.2 = (BW.ops (dst os o junk)).pos b := (hv ho).2
        have e2 : (BW.ops (dst os o junk)).ok r.2 = (BW.ops (dst os o junk)).ok b := by
          show r.2.phys.ok = b.phys.ok; rw [ho, hbo ho]
        rw [e1, (hv ho).1] at b1
        rw [e1] at b2
        rw [e2] at b3
        exact ⟨b1, b2, b3⟩
      · obtain ⟨b1, b2⟩ := a4 (r6 ho)
        exact ⟨b1, b2.trans r3⟩
      · cases ho : r.2.phys.ok with
        | false =>
          have := (a4 ho).2
          dsimp only at this ⊢
          rw [this, r3]; exact Mixed.old _ _ _ _ _
        | true =>
          have e1 : (BW.ops (dst os o junk)).pos r.2 = (BW.ops (dst os o junk)).pos b := (hv ho).2
          dsimp only at a5 ⊢
          rw [e1, (hv ho).1, r3] at a5
          exact a5
    by_cases hr : r.1 = false
    · rw [if_pos hr]
      obtain ⟨f1, f2⟩ := BW.fillSlow_spec L r1 n 0 hn
      exact hpost f1 f2
    · rw [if_neg hr]
      have hr := (Bool.not_eq_false _).mp hr
      obtain ⟨t1, t2, t3⟩ := r5 hr
      have hra := hra hr
      obtain ⟨s1, s2, s3, s4, s5⟩ := BW.sizeImpl_spec L r1
      generalize hsz : r.2.sizeImpl (dst os o junk) = s at *
      -- writing the buffer
      have hmix : Mixed r.2.pos (r.2.pos + ([] : Bytes).length) (cfg.dest r.2.phys.dst) (r.2.view cfg.dest) (overlay (r.2.view cfg.dest) r.2.pos []) (cfg.dest s.2.phys.dst) := by
        rw [overlay_nil]; exact s5.wider _ _ (Nat.le_refl 0)
      cases hs1 : s.1 with
      | none =>
        dsimp only
        have hf := s3 hs1
        have h0 : BW.Post (dst os o junk) cfg.dest (FdInv os cfg) [] r.2 (false, s.2) :=
          ⟨s1, fun h => (Bool.false_ne_true h).elim, fun _ => hf, s4, hmix⟩
        exact hpost (WritePost.failed _ h0 rfl) (fun h => (Bool.false_ne_true h).elim)
      | some size =>
        dsimp only
        obtain ⟨u1, u2, u3, u4, u5, u6⟩ := s2 size hs1
        have hbo : b.phys.ok = true := t2 ▸ u4
        have h0 : BW.Post (dst os o junk) cfg.dest (FdInv os cfg) [] r.2 (true, s.2) :=
          ⟨s1, fun _ => ⟨by rw [overlay_nil]; exact u2, u3, by show s.2.phys.ok = r.2.phys.ok; rw [u5, u4]⟩, fun h => (Bool.false_ne_true h.symm).elim, s4, hmix⟩
        have hthen : ∀ {x : Bool × BW FdW}, BW.Post (dst os o junk) cfg.dest (FdInv os cfg) (List.replicate n 0) s.2 x →
            BW.Post (dst os o junk) cfg.dest (FdInv os cfg) (List.replicate n 0) b x ∧ (x.1 = true → b.phys.ok = true) := fun hx =>
          ⟨(hpost (WritePost.seq h0 rfl hx) (fun _ => u4)).1, fun _ => hbo⟩
        by_cases ho : Rdr.fdMaxPos - s.2.phys.startPos < n
        · rw [if_pos ho]; exact hthen (BW.fail_post L s1 u6 _)
        · rw [if_neg ho]
          by_cases hl : s.2.phys.startPos + n < size
          · rw [if_pos hl]; exact hthen (BW.fillSlow_spec L s1 n 0 hn).1
          · rw [if_neg hl]
            have hd := dest_file t1 s.2.phys.dst
            have hv : s.2.view cfg.dest = s.2.phys.dst.content := u6.view.trans hd
            have hsize : size = s.2.phys.dst.content.length := by rw [u1, ← u2, hv]
            subst hsize
            have hna : os.append = false := not_append r1.phys u4 t1 hra
            obtain ⟨e1, e2, e3, e4⟩ := extend_spec n hn s1.phys u5 t1 hna (by omega)
            generalize extend os n s.2.phys.dst.content.length s.2.phys = e at *
            have hE : BW.Empty (s.2.after e.2) := BW.after_empty u6
            have hsp := u6.pos
            refine hthen ⟨hE.inv (by rw [BW.after_phys]; exact e1) ?_, fun ht => ⟨?_, ?_, ?_⟩, fun hf => ?_, fun hf => ?_, ?_⟩
            · rw [BW.after_phys, BW.after_sizer]
              intro heo
              cases he : e.1 with
              | false => rw [e3 he] at heo; cases heo
              | true => rw [(e2 he).2.1]; have := s1.base u5; omega
            · rw [hE.view, BW.after_phys, dest_file t1, (e2 ht).2.2, hv]
              show _ = overlay _ s.2.pos _
              rw [hsp]
            · show BW.pos _ = s.2.pos + _
              rw [hE.pos, BW.after_phys, (e2 ht).2.1, hsp, List.length_replicate]
            · show (s.2.after e.2).phys.ok = s.2.phys.ok
              rw [BW.after_phys, (e2 ht).1, u5]
            · show (s.2.after e.2).phys.ok = false
              rw [BW.after_phys]; exact e3 hf
            · rw [show s.2.phys.ok = false from hf] at u5; cases u5
            · show Mixed s.2.pos (s.2.pos + _) (cfg.dest s.2.phys.dst) (s.2.view cfg.dest) (overlay (s.2.view cfg.dest) s.2.pos _) (cfg.dest (s.2.after e.2).phys.dst)
              rw [BW.after_phys, dest_file t1, dest_file t1, hv, hsp, List.length_replicate]
              rcases e4 with h | h | h
              · rw [h]; exact Mixed.old _ _ _ _ _
              · rw [h]
                intro i
                by_cases hi : i < s.2.phys.startPos
                · exact .inl (List.getElem?_take_of_lt hi)
                · have hnone : (s.2.phys.dst.content.take s.2.phys.startPos)[i]? = none := List.getElem?_eq_none (by rw [List.length_take]; omega)
                  by_cases hi2 : i < s.2.phys.startPos + n
                  · exact .inr (.inr (.inr ⟨by omega, hi2, hnone⟩))
                  · exact .inl (hnone.trans (List.getElem?_eq_none (by omega)).symm)
              · rw [h]; exact Mixed.new _ _ _ _ _

theorem flushImpl_spec {o : Rdr.BufOpts} {junk : Nat → Nat → UInt8} {b : BW FdW} (h : BWInv (dst os o junk) (FdInv os cfg) b) (t : FlushType) :
    BW.Post (dst os o junk) cfg.dest (FdInv os cfg) [] b (flushImpl os (dst os o junk) t b) ∧
    ((flushImpl os (dst os o junk) t b).1 = true → b.phys.ok = true ∧ cfg.dest (flushImpl os (dst os o junk) t b).2.phys.dst = b.view cfg.dest ∧
      (t = .fromMachine → (flushImpl os (dst os o junk) t b).2.phys.dst.durable = (flushImpl os (dst os o junk) t b).2.phys.dst.content)) := by
  have L := dst_lawful os cfg o junk
  obtain ⟨f1, f2⟩ := BW.flushImpl_spec L h t
  unfold flushImpl
  generalize b.flushImpl (dst os o junk) t = r at *
  dsimp only
  by_cases hr : r.1 = false
  · rw [if_pos hr]
    exact ⟨WritePost.failed [] f1 hr, fun h => (Bool.false_ne_true h).elim⟩
  · rw [if_neg hr]
    have hr := (Bool.not_eq_false _).mp hr
    obtain ⟨k1, k2, k3⟩ := f2 hr
    have hro : r.2.phys.ok = true := by
      have := (f1.2.1 hr).2.2
      rw [show (BW.ops (dst os o junk)).ok b = true from k1] at this; exact this
    have hbase : BW.Post (dst os o junk) cfg.dest (FdInv os cfg) [] b (true, r.2) := by
      obtain ⟨x, y⟩ := r
      cases hr; exact f1
    cases t with
    | fromObject => exact ⟨hbase, fun _ => ⟨k1, k2, fun h => by cases h⟩⟩
    | fromProcess => exact ⟨hbase, fun _ => ⟨k1, k2, fun h => by cases h⟩⟩
    | fromMachine =>
      dsimp only
      by_cases hc : os.succeeds r.2.phys.dst.clock = false
      · rw [if_pos hc]
        refine ⟨?_, fun h => (Bool.false_ne_true h).elim⟩
        have : BW.Post (dst os o junk) cfg.dest (FdInv os cfg) [] r.2 (false, r.2.after (fail (tick r.2.phys))) :=
          BW.writes_post (r := (false, fail (tick r.2.phys))) f1.1 k3 ⟨fail_inv (tick_inv f1.1.phys), ⟨0, Nat.zero_le _, by simp; rfl⟩, fun h => (Bool.false_ne_true h).elim, fun _ => rfl, fun _ => ⟨rfl, rfl⟩⟩
        exact WritePost.seq f1 hr this
      · rw [if_neg hc]
        have hi := f1.1.phys
        have : BW.Post (dst os o junk) cfg.dest (FdInv os cfg) [] r.2 (true, r.2.after { tick r.2.phys with dst := { (tick r.2.phys).dst with durable := r.2.phys.dst.content } }) :=
          BW.writes_post (r := (true, { tick r.2.phys with dst := { (tick r.2.phys).dst with durable := r.2.phys.dst.content } })) f1.1 k3
            ⟨⟨hi.lazy, hi.stream, hi.file⟩, ⟨0, Nat.zero_le _, by simp; rfl⟩, fun _ => ⟨hro, hro, by rw [overlay_nil]; rfl, rfl⟩, fun h => (Bool.false_ne_true h.symm).elim, fun h => (by rw [hro] at h; cases h)⟩
        refine ⟨WritePost.seq f1 hr this, fun _ => ⟨k1, ?_, fun _ => ?_⟩⟩
        · rw [BW.after_phys]; exact k2
        · rw [BW.after_phys]; rfl

/-- `FdWriter` is a lawful class of writers. -/
theorem lawful (os : WOs) (cfg : FdCfg) (o : Rdr.BufOpts) (junk : Nat → Nat → UInt8) :
    (ops os o junk).Lawful (BW.view cfg.dest) (fun b => cfg.dest b.phys.dst) (BWInv (dst os o junk) (FdInv os cfg)) :=
  let L := BW.lawful (dst_lawful os cfg o junk)
  { avail := L.avail
    put := L.put
    pushSlow := L.pushSlow
    writeSlow := L.writeSlow
    fillSlow := fun n c _ h hn => fillSlow_spec h n c (by omega)
    flushImpl := fun t _ h => ⟨(flushImpl_spec h t).1, fun ht => ⟨((flushImpl_spec h t).2 ht).1, fun _ => ((flushImpl_spec h t).2 ht).2.1⟩⟩
    seekSlow := L.seekSlow
    sizeImpl := L.sizeImpl
    truncateImpl := L.truncateImpl
    readModeImpl := L.readModeImpl
    randomAccess := L.randomAccess
    setHint := L.setHint }

/-- Whether the writer only sends data: the position is assumed, or the position of the file descriptor is unknown. -/
def isStream (os : WOs) : Rdr.FdPos → Bool
  | .assumed _ => true
  | .independent _ => false
  | .current => !os.seekable || (os.append && !os.seekEnd)

/-- The initial position. -/
def startPos (os : WOs) (content : Bytes) (pos : Nat) : Rdr.FdPos → Nat
  | .assumed a => a
  | .independent a => a
  | .current => if isStream os .current then 0 else if os.append then content.length else pos

theorem init_spec (os : WOs) (o : Rdr.BufOpts) (junk : Nat → Nat → UInt8) (po : Rdr.FdPos) (opened : Bool) (content : Bytes) (pos : Nat) :
    BWInv (dst os o junk) (FdInv os ⟨isStream os po, startPos os content pos po, content, pos⟩) (init os po opened content pos) ∧
    BW.Empty (init os po opened content pos) ∧ (init os po opened content pos).phys.dst.content = content ∧
    (init os po opened content pos).phys.dst.sent = [] ∧
    ((init os po opened content pos).phys.ok = true → (init os po opened content pos).phys.startPos = startPos os content pos po) := by
  have hsink : content = sink os content pos [] := by unfold sink; split <;> simp
  unfold init
  dsimp only
  by_cases hf : opened = false ∧ os.succeeds 0 = false
  · rw [if_pos hf]
    have hE : BW.Empty (⟨fail (tick ⟨⟨content, pos, 0, false, none, if os.rdwr then none else some false, false, [], content⟩, 0, true⟩), [], 0, 0, ⟨0, 0, none⟩, 0⟩ : BW FdW) := ⟨rfl, rfl, rfl⟩
    exact ⟨hE.inv ⟨fun _ => rfl, fun _ => ⟨(fun h => by cases h), hsink, fun h => (Bool.false_ne_true h).elim⟩, fun _ h => (Bool.false_ne_true h).elim⟩ (fun h => (Bool.false_ne_true h).elim),
      hE, rfl, rfl, fun h => (Bool.false_ne_true h).elim⟩
  · rw [if_neg hf]
    cases po with
    | assumed a =>
      dsimp only
      by_cases ha : Rdr.fdMaxPos < a
      · rw [if_pos ha]
        refine ⟨BW.Empty.inv ⟨rfl, rfl, rfl⟩ ⟨fun _ => rfl, fun _ => ⟨(fun h => by cases h), hsink, fun h => (Bool.false_ne_true h).elim⟩, fun _ h => (Bool.false_ne_true h).elim⟩ (fun h => (Bool.false_ne_true h).elim),
          ⟨rfl, rfl, rfl⟩, rfl, rfl, fun h => (Bool.false_ne_true h).elim⟩
      · rw [if_neg ha]
        refine ⟨BW.Empty.inv ⟨rfl, rfl, rfl⟩ ⟨(fun h => by cases h), fun _ => ⟨(fun h => by cases h), hsink, fun _ => ⟨rfl, rfl, rfl, rfl, rfl, fun _ _ => rfl⟩⟩, (fun h => by cases h)⟩ (fun _ => Nat.le_refl _),
          ⟨rfl, rfl, rfl⟩, rfl, rfl, fun _ => rfl⟩
    | independent a =>
      dsimp only
      by_cases hap : os.append = true
      · rw [if_pos hap]
        refine ⟨BW.Empty.inv ⟨rfl, rfl, rfl⟩ ⟨fun _ => rfl, fun _ => ⟨(fun h => by cases h), hsink, fun h => (Bool.false_ne_true h).elim⟩, fun _ h => (Bool.false_ne_true h).elim⟩ (fun h => (Bool.false_ne_true h).elim),
          ⟨rfl, rfl, rfl⟩, rfl, rfl, fun h => (Bool.false_ne_true h).elim⟩
      · rw [if_neg hap]
        by_cases ha : Rdr.fdMaxPos < a
        · rw [if_pos ha]
          refine ⟨BW.Empty.inv ⟨rfl, rfl, rfl⟩ ⟨fun _ => rfl, fun _ => ⟨(fun h => by cases h), hsink, fun h => (Bool.false_ne_true h).elim⟩, fun _ h => (Bool.false_ne_true h).elim⟩ (fun h => (Bool.false_ne_true h).elim),
            ⟨rfl, rfl, rfl⟩, rfl, rfl, fun h => (Bool.false_ne_true h).elim⟩
        · rw [if_neg ha]
          refine ⟨BW.Empty.inv ⟨rfl, rfl, rfl⟩ ⟨(fun h => by cases h), (fun h => by cases h), fun _ _ => .inl ⟨rfl, (Bool.not_eq_true _).mp hap⟩⟩ (fun _ => Nat.le_refl _),
            ⟨rfl, rfl, rfl⟩, rfl, rfl, fun _ => rfl⟩
    | current =>
      dsimp only
      by_cases hst : os.seekable = false ∨ (os.append = true ∧ os.seekEnd = false)
      · rw [if_pos hst]
        have his : isStream os .current = true := by
          unfold isStream
          rcases hst with h | ⟨h, h'⟩
          · rw [h]; rfl
          · rw [h, h']; simp
        have hsp : startPos os content pos .current = 0 := by unfold startPos; rw [his]; rfl
        rw [his, hsp]
        refine ⟨BW.Empty.inv ⟨rfl, rfl, rfl⟩ ⟨(fun h => by cases h), fun _ => ⟨(fun h => by cases h), hsink, fun _ => ⟨rfl, rfl, rfl, rfl, rfl, fun _ _ => rfl⟩⟩, (fun h => by cases h)⟩ (fun _ => Nat.le_refl _),
          ⟨rfl, rfl, rfl⟩, rfl, rfl, fun _ => rfl⟩
      · rw [if_neg hst]
        have hsk : os.seekable = true := by
          cases h : os.seekable with
          | true => rfl
          | false => exact (hst (.inl h)).elim
        have his : isStream os .current = false := by
          unfold isStream
          rw [hsk]
          cases hap : os.append with
          | false => rfl
          | true =>
            cases he : os.seekEnd with
            | true => rfl
            | false => exact (hst (.inr ⟨hap, he⟩)).elim
        have hsp : startPos os content pos .current = if os.append then content.length else pos := by unfold startPos; rw [his]; rfl
        rw [his, hsp]
        by_cases hap : os.append = true
        · rw [if_pos hap, if_pos hap]
          refine ⟨BW.Empty.inv ⟨rfl, rfl, rfl⟩ ⟨(fun h => by cases h), (fun h => by cases h), fun _ _ => .inr (.inr ⟨rfl, hsk, hap, rfl, rfl⟩)⟩ (fun _ => Nat.le_refl _),
            ⟨rfl, rfl, rfl⟩, rfl, rfl, fun _ => rfl⟩
        · rw [if_neg hap, if_neg hap]
          refine ⟨BW.Empty.inv ⟨rfl, rfl, rfl⟩ ⟨fun _ => rfl, (fun h => by cases h), fun _ _ => .inr (.inl ⟨rfl, hsk, (Bool.not_eq_true _).mp hap, fun _ => rfl⟩)⟩ (fun _ => Nat.le_refl _),
            ⟨rfl, rfl, rfl⟩, rfl, rfl, fun _ => rfl⟩

/-! ## An independent position -/

/-- With `set_independent_pos()` the position of the file descriptor stays `pos`. -/
def Indep (pos : Nat) (p : WPhys FdW) : Prop :=
  p.dst.indep = true ∧ p.dst.ra = some true ∧ p.dst.rm ≠ none ∧ p.dst.filePos = pos

section
variable {pos : Nat}

theorem seekInternal_indep (q : Nat) (h : Indep pos p) : Indep pos (seekInternal os q p).2 := by
  unfold seekInternal; rw [if_pos h.1]; exact h

theorem randomAccess_indep (h : Indep pos p) : randomAccess os p = (true, p) := by unfold randomAccess; rw [h.2.1]

theorem supportsReadMode_indep (h : Indep pos p) : Indep pos (supportsReadMode os p).2 := by
  unfold supportsReadMode
  cases hr : p.dst.rm with
  | none => exact (h.2.2.1 hr).elim
  | some r => exact h

theorem writeMode_indep (h : Indep pos p) : Indep pos (writeMode os p).2 := by
  unfold writeMode
  dsimp only
  split
  · exact h
  · split
    · exact h
    · exact seekInternal_indep _ h

theorem writeLoop_indep (fuel : Nat) (bs : Bytes) (h : Indep pos p) : Indep pos (writeLoop os fuel bs p).2 := by
  induction fuel generalizing bs p with
  | zero => exact h
  | succ fuel ih =>
    unfold writeLoop
    split
    · exact h
    · dsimp only
      have : Indep pos (tick (emit os (bs.take (min (min bs.length (2 ^ 30)) (‹Nat› + 1))) p)) := by
        refine ⟨h.1, h.2.1, h.2.2.1, ?_⟩
        show (if p.dst.indep then p.dst.filePos else _) = pos
        rw [if_pos h.1]; exact h.2.2.2
      split
      · exact this
      · exact ih _ this

theorem writeInternal_indep (bs : Bytes) (h : Indep pos p) : Indep pos (writeInternal os bs p).2 := by
  have h1 := writeMode_indep (os := os) h
  unfold writeInternal
  dsimp only
  split
  · exact h1
  · split
    · exact h1
    · exact writeLoop_indep _ _ h1

theorem flushBehind_indep (bs : Bytes) (h : Indep pos p) : Indep pos (flushBehind os bs p).2 := by
  have h1 := writeMode_indep (os := os) h
  unfold flushBehind BDst.defaultFlush
  dsimp only
  split
  · exact h1
  · split
    · exact h1
    · split
      · exact h1
      · exact writeInternal_indep _ h1

theorem keeps_indep (os : WOs) (o : Rdr.BufOpts) (junk : Nat → Nat → UInt8) (pos : Nat) : (dst os o junk).Keeps (Indep pos) where
  fail _ h := h
  writeInternal _ _ h := writeInternal_indep _ h
  flushBehind _ _ _ h := flushBehind_indep _ h
  doneBehind _ _ h := flushBehind_indep _ h
  seekBehind q p h := by
    show Indep pos (seekBehind os q p).2
    unfold seekBehind
    rw [randomAccess_indep h]
    dsimp only
    rw [if_neg Bool.true_eq_false.mp]
    split
    · exact h
    · split
      · split
        · exact h
        · split
          · exact seekInternal_indep _ h
          · exact seekInternal_indep _ h
      · exact seekInternal_indep _ h
  sizeBehind p h := by
    show Indep pos (sizeBehind os p).2
    unfold sizeBehind
    rw [randomAccess_indep h]
    dsimp only
    rw [if_neg Bool.true_eq_false.mp]
    split
    · exact h
    · split <;> exact h
  truncateBehind n p h := by
    show Indep pos (truncateBehind os n p).2
    have hf : ∀ p : WPhys FdW, Indep pos p → Indep pos (if (truncateInternal os n p).1 = false then (false, (truncateInternal os n p).2) else seekInternal os n (truncateInternal os n p).2).2 := fun p h => by
      have ht : Indep pos (truncateInternal os n p).2 := by unfold truncateInternal; split <;> exact h
      split
      · exact ht
      · exact seekInternal_indep _ ht
    unfold truncateBehind
    dsimp only
    split
    · exact h
    · split
      · split
        · exact h
        · split
          · exact seekInternal_indep _ h
          · exact hf _ h
      · exact hf _ h
  readModeBehind q p h := by
    show Indep pos (readModeBehind os q p).2
    have h1 := supportsReadMode_indep (os := os) h
    unfold readModeBehind
    dsimp only
    split
    · unfold unsupported; split <;> exact h1
    · split
      · exact h1
      · refine ⟨h1.1, h1.2.1, h1.2.2.1, ?_⟩
        show (if (supportsReadMode os p).2.dst.indep then _ else _) = pos
        rw [if_pos h1.1]; exact h1.2.2.2
  randomAccess p h := by
    show Indep pos (randomAccess os p).2
    rw [randomAccess_indep h]; exact h

theorem extend_indep (n size : Nat) (h : Indep pos p) : Indep pos (extend os n size p).2 := by
  have ht : ∀ n (p : WPhys FdW), Indep pos p → Indep pos (truncateInternal os n p).2 := fun n p h => by unfold truncateInternal; split <;> exact h
  unfold extend
  dsimp only
  generalize hr : (if p.startPos < size then truncateInternal os p.startPos p else (true, p)) = r
  have h1 : Indep pos r.2 := by
    rw [← hr]; split
    · exact ht _ _ h
    · exact h
  have h2 := ht (p.startPos + n) _ h1
  split
  · exact h1
  · split
    · exact h2
    · exact seekInternal_indep _ h2

theorem fillSlow_indep {o : Rdr.BufOpts} {junk : Nat → Nat → UInt8} (n : Nat) (c : UInt8) (b : BW FdW) (h : Indep pos b.phys) :
    Indep pos (fillSlow os (dst os o junk) n c b).2.phys := by
  have K := keeps_indep os o junk pos
  have h1 := BW.randomAccess_keeps K h
  unfold fillSlow
  dsimp only
  split
  · exact BW.fillSlow_keeps K _ _ h
  · split
    · exact BW.fillSlow_keeps K _ _ h1
    · have h2 := BW.sizeImpl_keeps K h1
      split
      · exact h2
      · split
        · exact BW.fail_keeps K h2
        · split
          · exact BW.fillSlow_keeps K _ _ h2
          · rw [BW.after_phys]; exact extend_indep _ _ h2

theorem flushImpl_indep {o : Rdr.BufOpts} {junk : Nat → Nat → UInt8} (t : FlushType) (b : BW FdW) (h : Indep pos b.phys) :
    Indep pos (flushImpl os (dst os o junk) t b).2.phys := by
  have h1 := BW.flushImpl_keeps (keeps_indep os o junk pos) t h
  unfold flushImpl
  dsimp only
  split
  · exact h1
  · split
    · split
      · rw [BW.after_phys]; exact h1
      · rw [BW.after_phys]; exact h1
    · exact h1

theorem runAll_indep {o : Rdr.BufOpts} {junk : Nat → Nat → UInt8} (l : List WOp) {b : BW FdW} (h : Indep pos b.phys) :
    Indep pos (WOp.runAll (ops os o junk) l b).2.phys := by
  induction l generalizing b with
  | nil => exact h
  | cons op l ih => exact ih (BW.run_keeps (keeps_indep os o junk pos) (fun n c b h => fillSlow_indep n c b h) (fun t b h => flushImpl_indep t b h) op h)

end

/-! ## Leaving the read mode -/

theorem writeLoop_readMode (fuel : Nat) (bs : Bytes) (h : p.dst.readMode = false) : (writeLoop os fuel bs p).2.dst.readMode = false := by
  induction fuel generalizing bs p with
  | zero => exact h
  | succ fuel ih =>
    unfold writeLoop
    split
    · exact h
    · dsimp only
      split
      · exact h
      · exact ih _ h

theorem seekInternal_readMode (q : Nat) (h : p.dst.readMode = false) : (seekInternal os q p).2.dst.readMode = false := by
  unfold seekInternal
  split
  · exact h
  · split <;> exact h

theorem writeMode_readMode : (writeMode os p).2.dst.readMode = false := by
  unfold writeMode
  dsimp only
  split
  · assumption
  · split
    · rfl
    · exact seekInternal_readMode _ rfl

theorem writeInternal_readMode (bs : Bytes) : (writeInternal os bs p).2.dst.readMode = false := by
  unfold writeInternal
  dsimp only
  split
  · exact writeMode_readMode
  · split
    · exact writeMode_readMode (os := os)
    · exact writeLoop_readMode _ _ writeMode_readMode

theorem flushBehind_readMode (bs : Bytes) : (flushBehind os bs p).2.dst.readMode = false := by
  unfold flushBehind BDst.defaultFlush
  dsimp only
  split
  · exact writeMode_readMode
  · split
    · exact writeMode_readMode
    · split
      · exact writeMode_readMode
      · exact writeInternal_readMode _

theorem seekBehind_readMode (q : Nat) (h : (seekBehind os q p).2.ok = true) : (seekBehind os q p).2.dst.readMode = false := by
  unfold seekBehind at h ⊢
  dsimp only at h ⊢
  split at h
  · unfold unsupported at h
    split at h
    · cases h
    · rename_i h1; exact (h1 h).elim
  · split at h
    · rename_i h1; rw [h1] at h; cases h
    · rw [if_neg ‹_›, if_neg ‹_›]
      split
      · split
        · rfl
        · split
          · exact seekInternal_readMode _ rfl
          · exact seekInternal_readMode _ rfl
      · exact seekInternal_readMode _ rfl

/-- After a successful `Close()` the file descriptor is at the position of the writer. -/
theorem done_filePos {o : Rdr.BufOpts} {junk : Nat → Nat → UInt8} {b : BW FdW} (h : BWInv (dst os o junk) (FdInv os cfg) b)
    (ho : (b.done (dst os o junk)).ok = true) (hs : cfg.stream = false) (hi : (b.done (dst os o junk)).dst.indep = false) (ha : os.append = false) :
    (b.done (dst os o junk)).dst.filePos = b.pos := by
  obtain ⟨d1, d2, -, -⟩ := BW.done_spec (dst_lawful os cfg o junk) h
  rw [← (d2 ho).2.2]
  have hrm : (b.done (dst os o junk)).dst.readMode = false := by
    unfold BW.done at ho ⊢
    dsimp only at ho ⊢
    split
    · rename_i hc
      rw [if_pos hc] at ho
      exact seekBehind_readMode _ ho
    · exact flushBehind_readMode _
  rcases d1.file hs ho with h1 | h1 | h1
  · rw [hi] at h1; cases h1.1
  · exact h1.2.2.2 hrm
  · rw [ha] at h1; cases h1.2.2.1

end FdW
end Riegeli.Wtr
