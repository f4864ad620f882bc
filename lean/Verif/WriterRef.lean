import Verif.WriterProofs
/-!
# Writers which override all functions writing data by reference

`WriteSlow(ExternalRef)`, `WriteSlow(Chain)` and `WriteSlow(Cord)` of `Writer` write the data as fragments (`writer.cc:198-243`). `ChainWriter` and `CordWriter`
override them. `RefOps` has the overridden function for an `absl::Cord` or a `Chain` with the given blocks; an `ExternalRef` is like a `Chain` with one block.
-/
namespace Riegeli.Wtr

/-- Virtual functions of a class which overrides `WriteSlow(ExternalRef)`, `WriteSlow(Chain)` and `WriteSlow(Cord)`. -/
structure RefOps (σ : Type) extends WriterOps σ where
  refSlow : List Bytes → σ → Bool × σ

namespace RefOps
variable {σ : Type} (W : RefOps σ)

/-- `Write()` of an `ExternalRef`, `Chain` or `absl::Cord` (`writer.h:670-679`, `writer.cc:80-142`). -/
def writeRef (fs : List Bytes) (s : σ) : Bool × σ :=
  if fs.flatten.length ≤ W.avail s ∧ fs.flatten.length ≤ kMaxBytesToCopy then (true, W.put fs.flatten s) else W.refSlow fs s

/-- Calls a public function. -/
def call (op : WOp) (s : σ) : Bool × σ :=
  match op with
  | .writeExternal bs => W.writeRef [bs] s
  | .writeChain fs => W.writeRef fs s
  | op => op.run W.toWriterOps s

/-- Calls functions, and collects their results. -/
def callAll : List WOp → σ → List Bool × σ
  | [], s => ([], s)
  | op :: ops, s =>
    let r := W.call op s
    let rs := callAll ops r.2
    (r.1 :: rs.1, rs.2)

/-- The contract. These classes support random access. -/
structure Lawful (view dest : σ → Bytes) (Inv : σ → Prop) : Prop where
  base : W.toWriterOps.Lawful view dest Inv
  refSlow : ∀ fs s, Inv s → fs.flatten ≠ [] → WritePost W.toWriterOps view dest Inv fs.flatten s (W.refSlow fs s)
  random : ∀ s, Inv s → (W.randomAccess s).1 = true

/-- The class fails only when a position would exceed `M`. -/
structure Total (M : Nat) (Inv : σ → Prop) : Prop where
  pushSlow : ∀ n rec s, Inv s → W.avail s < n → W.ok s = true → W.pos s + n ≤ M → (W.pushSlow n rec s).1 = true
  writeSlow : ∀ bs s, Inv s → W.avail s < bs.length → W.ok s = true → W.pos s + bs.length ≤ M → (W.writeSlow bs s).1 = true
  fillSlow : ∀ n b s, Inv s → 0 < n → W.ok s = true → W.pos s + n ≤ M → (W.fillSlow n b s).1 = true
  refSlow : ∀ fs s, Inv s → W.ok s = true → W.pos s + fs.flatten.length ≤ M → (W.refSlow fs s).1 = true
  flushImpl : ∀ t s, Inv s → W.ok s = true → (W.flushImpl t s).1 = true
  readModeImpl : ∀ q s, Inv s → W.ok s = true → (W.readModeImpl q s).1 = true
  seekSlow : ∀ q s, Inv s → q ≠ W.pos s → W.ok s = true → W.ok (W.seekSlow q s).2 = true
  sizeImpl : ∀ s, Inv s → W.ok s = true → W.ok (W.sizeImpl s).2 = true
  truncateImpl : ∀ n s, Inv s → W.ok s = true → W.ok (W.truncateImpl n s).2 = true
  randomAccess : ∀ s, Inv s → W.ok s = true → W.ok (W.randomAccess s).2 = true
  setHint : ∀ n s, Inv s → W.ok s = true → W.ok (W.setHint n s) = true

end RefOps

/-- How many bytes after `pos()` the call needs. -/
def WOp.needs : WOp → Nat
  | .push n _ => n
  | op => op.bytes.length

section
variable {σ : Type} {W : RefOps σ} {view dest : σ → Bytes} {Inv : σ → Prop}

namespace RefOps.Lawful
variable (L : W.Lawful view dest Inv)
include L

theorem writeRef {s : σ} {fs : List Bytes} (h : Inv s) : WritePost W.toWriterOps view dest Inv fs.flatten s (W.writeRef fs s) := by
  unfold RefOps.writeRef
  by_cases hb : fs.flatten.length ≤ W.avail s ∧ fs.flatten.length ≤ kMaxBytesToCopy
  · rw [if_pos hb]
    exact L.base.put_post h hb.1
  · rw [if_neg hb]
    refine L.refSlow fs s h (fun h0 => hb ?_)
    rw [h0]
    exact ⟨Nat.zero_le _, Nat.zero_le _⟩

/-- Every public function does what the specification says. -/
theorem call {op : WOp} {s : σ} (h : Inv s) :
    Inv (W.call op s).2 ∧
    (W.ok (W.call op s).2 = true → (view (W.call op s).2, W.pos (W.call op s).2) = op.after (W.call op s).1 (view s, W.pos s) ∧
      op.Possible (W.call op s).1 (view s, W.pos s)) ∧
    (W.ok s = false → W.ok (W.call op s).2 = false ∧ dest (W.call op s).2 = dest s) := by
  have hall : op.Allowed W.toWriterOps s := by cases op <;> first | exact trivial | exact L.random s h
  cases op with
  | writeExternal bs =>
    have h1 := L.writeRef (fs := [bs]) h
    rw [List.flatten_singleton] at h1
    obtain ⟨h2, h3⟩ := WriterOps.Lawful.of_post (op := .writeExternal bs) h1 (fun _ _ _ => by cases ‹Bool› <;> rfl) (fun _ => rfl)
    exact ⟨h1.1, h2, h3⟩
  | writeChain fs =>
    have h1 := L.writeRef (fs := fs) h
    obtain ⟨h2, h3⟩ := WriterOps.Lawful.of_post (op := .writeChain fs) h1 (fun _ _ _ => by cases ‹Bool› <;> rfl) (fun _ => rfl)
    exact ⟨h1.1, h2, h3⟩
  | _ =>
    obtain ⟨a1, a2, a3, a4⟩ := L.base.run (W := W.toWriterOps) h hall
    exact ⟨a1, a2, a3⟩

theorem callAll {ops : List WOp} {s : σ} (h : Inv s) :
    let r := W.callAll ops s
    Inv r.2 ∧
    (W.ok r.2 = true → (view r.2, W.pos r.2) = WOp.replay ops r.1 (view s, W.pos s) ∧ WOp.AllPossible ops r.1 (view s, W.pos s)) ∧
    (W.ok s = false → W.ok r.2 = false ∧ dest r.2 = dest s) := by
  induction ops generalizing s with
  | nil => exact ⟨h, fun _ => ⟨rfl, trivial⟩, fun h => ⟨h, rfl⟩⟩
  | cons op ops ih =>
    obtain ⟨r1, r2, r3⟩ := L.call (op := op) h
    obtain ⟨i1, i2, i3⟩ := ih r1
    refine ⟨i1, fun ho => ?_, fun ho => ?_⟩
    · have ho1 : W.ok (W.call op s).2 = true := by
        cases h' : W.ok (W.call op s).2 with
        | true => rfl
        | false => exact (Bool.false_ne_true ((i3 h').1.symm.trans ho)).elim
      obtain ⟨j1, j2⟩ := i2 ho
      obtain ⟨k1, k2⟩ := r2 ho1
      rw [k1] at j1 j2
      exact ⟨j1, k2, j2⟩
    · obtain ⟨j1, j2⟩ := i3 (r3 ho).1
      exact ⟨j1, j2.trans (r3 ho).2⟩

/-- A call does not make the writer fail unless it needs a position over `M`. -/
theorem call_ok {M : Nat} (T : W.Total M Inv) {s : σ} (h : Inv s) (op : WOp) (ho : W.ok s = true) (hk : W.pos s + op.needs ≤ M) :
    W.ok (W.call op s).2 = true := by
  cases op with
  | push n rec =>
    have h1 := (L.base.push (n := n) (rec := rec) h).1
    refine (h1.2.1 ?_).2.2.trans ho
    unfold WriterOps.push
    split
    · rfl
    · exact T.pushSlow n rec s h (by omega) ho hk
  | writeChar b =>
    have h1 := (L.base.writeChar (b := b) h).1
    refine (h1.2.1 ?_).2.2.trans ho
    have : (W.push 1 0 s).1 = true := by
      unfold WriterOps.push
      split
      · rfl
      · exact T.pushSlow 1 0 s h (by omega) ho hk
    unfold WriterOps.writeChar
    dsimp only
    rw [if_neg (by rw [this]; nofun)]
  | write bs =>
    have h1 := (L.base.write (bs := bs) h).1
    refine (h1.2.1 ?_).2.2.trans ho
    unfold WriterOps.write
    split
    · rfl
    · exact T.writeSlow bs s h (by omega) ho hk
  | writeExternal bs =>
    have h1 := L.writeRef (fs := [bs]) h
    refine (h1.2.1 ?_).2.2.trans ho
    unfold RefOps.writeRef
    split
    · rfl
    · exact T.refSlow [bs] s h ho (by rw [List.flatten_singleton]; exact hk)
  | writeChain fs =>
    have h1 := L.writeRef (fs := fs) h
    refine (h1.2.1 ?_).2.2.trans ho
    unfold RefOps.writeRef
    split
    · rfl
    · exact T.refSlow fs s h ho hk
  | fill n b =>
    have h1 := (L.base.fill (n := n) (b := b) h).1
    refine (h1.2.1 ?_).2.2.trans ho
    unfold WriterOps.fill
    split
    · rfl
    · refine T.fillSlow n b s h (by omega) ho ?_
      have : (WOp.fill n b).needs = n := List.length_replicate
      omega
  | flush t => exact ((L.base.flushImpl t s h).1.2.1 (T.flushImpl t s h ho)).2.2.trans ho
  | seek q =>
    show W.ok (W.seek q s).2 = true
    unfold WriterOps.seek
    split
    · exact ho
    · exact T.seekSlow q s h (by assumption) ho
  | size => exact T.sizeImpl s h ho
  | truncate n => exact T.truncateImpl n s h ho
  | readMode q => exact ((L.base.readModeImpl q s h).1.2.1 (T.readModeImpl q s h ho)).2.2.trans ho
  | supportsRandomAccess => exact T.randomAccess s h ho
  | setWriteSizeHint n => exact T.setHint n s h ho

end RefOps.Lawful

/-- `WriteSlow(string_view)` in terms of `PushSlow()` fails only if `PushSlow()` fails. -/
theorem WriterOps.PushLawful.defaultWriteSlow_true {W : WriterOps σ} (L : W.PushLawful view dest Inv) {M : Nat}
    (T : ∀ n rec s, Inv s → W.avail s < n → W.ok s = true → W.pos s + n ≤ M → (W.pushSlow n rec s).1 = true)
    {fuel : Nat} {bs : Bytes} {s : σ} (h : Inv s) (hb : W.avail s < bs.length) (ho : W.ok s = true) (hk : W.pos s + bs.length ≤ M)
    (hf : bs.length < fuel ∨ (0 < W.avail s ∧ bs.length ≤ fuel)) : (W.defaultWriteSlow fuel bs s).1 = true := by
  induction fuel generalizing bs s with
  | zero => exfalso; omega
  | succ fuel ih =>
    unfold WriterOps.defaultWriteSlow
    dsimp only
    have hl : (bs.take (W.avail s)).length = W.avail s := by rw [List.length_take]; omega
    have hd : (bs.drop (W.avail s)).length = bs.length - W.avail s := List.length_drop
    obtain ⟨h1, -, h6, h2, h3, -⟩ := L.put (bs.take (W.avail s)) s h (by omega)
    rw [hl, Nat.sub_self] at h2
    rw [hl] at h6
    have ht := T 1 (bs.drop (W.avail s)).length _ h1 (by omega) (h3.trans ho) (by omega)
    obtain ⟨h4, h5⟩ := L.pushSlow 1 (bs.drop (W.avail s)).length _ h1 (by omega)
    obtain ⟨k1, k2, k3, -, -⟩ := h4
    rw [if_neg (by rw [ht]; nofun)]
    split
    · refine ih k1 (by omega) ((k2 ht).2.2.trans (h3.trans ho)) ?_ ?_
      · have := (k2 ht).2.1
        simp only [List.length_nil] at this
        omega
      · have := (h5 ht).1
        omega
    · rfl

/-- `WriteSlow(ByteFill)` in terms of `PushSlow()`. -/
theorem WriterOps.PushLawful.defaultFillSlow {W : WriterOps σ} (L : W.PushLawful view dest Inv) {fuel n : Nat} {b : UInt8} {s : σ} (h : Inv s) (hn : 0 < n)
    (hf : n < fuel ∨ (0 < W.avail s ∧ n ≤ fuel)) :
    WritePost W view dest Inv (List.replicate n b) s (W.defaultFillSlow fuel n b s) ∧ ((W.defaultFillSlow fuel n b s).1 = true → W.ok s = true) := by
  induction fuel generalizing n s with
  | zero => exfalso; omega
  | succ fuel ih =>
    unfold WriterOps.defaultFillSlow
    dsimp only
    by_cases ha : W.avail s < n
    · rw [if_pos ha]
      have hl : (List.replicate (W.avail s) b).length = W.avail s := List.length_replicate
      have h1 := L.put_post (bs := List.replicate (W.avail s) b) h (by omega)
      obtain ⟨-, -, -, h2, h3, -⟩ := L.put (List.replicate (W.avail s) b) s h (by omega)
      rw [hl, Nat.sub_self] at h2
      have e : W.push 1 (n - W.avail s) (W.put (List.replicate (W.avail s) b) s) = W.pushSlow 1 (n - W.avail s) (W.put (List.replicate (W.avail s) b) s) := by
        unfold WriterOps.push
        rw [if_neg (by omega)]
      rw [e]
      obtain ⟨h4, h5⟩ := L.pushSlow 1 (n - W.avail s) _ h1.1 (by dsimp only; omega)
      have h6 := h1.seq rfl h4
      rw [List.append_nil] at h6
      dsimp only at h4 h5 h6
      generalize W.pushSlow 1 (n - W.avail s) (W.put (List.replicate (W.avail s) b) s) = r at *
      have htd : List.replicate (W.avail s) b ++ List.replicate (n - W.avail s) b = List.replicate n b := by
        rw [List.replicate_append_replicate]; congr 1; omega
      by_cases hr1 : r.1 = false
      · rw [if_pos hr1]
        refine ⟨?_, nofun⟩
        have := h6.failed (List.replicate (n - W.avail s) b) hr1
        rwa [htd] at this
      · rw [if_neg hr1]
        have hr1 := (Bool.not_eq_false _).mp hr1
        obtain ⟨h7, h8⟩ := h5 hr1
        rw [h3] at h8
        obtain ⟨i1, -⟩ := ih (n := n - W.avail s) h4.1 (by omega) (by omega)
        refine ⟨?_, fun _ => h8⟩
        have := h6.seq hr1 i1
        rwa [htd] at this
    · rw [if_neg ha]
      refine ⟨L.put_post h (by rw [List.length_replicate]; omega), fun _ => ?_⟩
      cases ho : W.ok s with
      | true => rfl
      | false =>
        have := L.avail s h ho
        omega

/-- `WriteSlow(ByteFill)` in terms of `PushSlow()` fails only if `PushSlow()` fails. -/
theorem WriterOps.PushLawful.defaultFillSlow_true {W : WriterOps σ} (L : W.PushLawful view dest Inv) {M : Nat}
    (T : ∀ n rec s, Inv s → W.avail s < n → W.ok s = true → W.pos s + n ≤ M → (W.pushSlow n rec s).1 = true)
    {fuel n : Nat} {b : UInt8} {s : σ} (h : Inv s) (hn : 0 < n) (ho : W.ok s = true) (hk : W.pos s + n ≤ M)
    (hf : n < fuel ∨ (0 < W.avail s ∧ n ≤ fuel)) : (W.defaultFillSlow fuel n b s).1 = true := by
  induction fuel generalizing n s with
  | zero => exfalso; omega
  | succ fuel ih =>
    unfold WriterOps.defaultFillSlow
    dsimp only
    by_cases ha : W.avail s < n
    · rw [if_pos ha]
      have hl : (List.replicate (W.avail s) b).length = W.avail s := List.length_replicate
      obtain ⟨h1, -, h6, h2, h3, -⟩ := L.put (List.replicate (W.avail s) b) s h (by omega)
      rw [hl, Nat.sub_self] at h2
      rw [hl] at h6
      have e : W.push 1 (n - W.avail s) (W.put (List.replicate (W.avail s) b) s) = W.pushSlow 1 (n - W.avail s) (W.put (List.replicate (W.avail s) b) s) := by
        unfold WriterOps.push
        rw [if_neg (by omega)]
      rw [e]
      have ht := T 1 (n - W.avail s) _ h1 (by omega) (h3.trans ho) (by omega)
      obtain ⟨h4, h5⟩ := L.pushSlow 1 (n - W.avail s) _ h1 (by omega)
      obtain ⟨k1, k2, k3, -, -⟩ := h4
      rw [if_neg (by rw [ht]; nofun)]
      have e2 := (k2 ht).2.1
      simp only [List.length_nil] at e2
      have e3 := (h5 ht).1
      exact ih k1 (by omega) ((k2 ht).2.2.trans (h3.trans ho)) (by omega) (by omega)
    · rw [if_neg ha]

/-- Writing fragments fails only if `WriteSlow(string_view)` fails. -/
theorem writeFragments_true {W : WriterOps σ} {M : Nat}
    (hw : ∀ bs s, Inv s → WritePost W view dest Inv bs s (W.write bs s))
    (T : ∀ bs s, Inv s → W.ok s = true → W.pos s + bs.length ≤ M → (W.write bs s).1 = true)
    {fs : List Bytes} {s : σ} (h : Inv s) (ho : W.ok s = true) (hk : W.pos s + fs.flatten.length ≤ M) : (W.writeFragments fs s).1 = true := by
  induction fs generalizing s with
  | nil => rfl
  | cons f fs ih =>
    rw [List.flatten_cons, List.length_append] at hk
    have ht := T f s h ho (by omega)
    obtain ⟨a1, a2, -⟩ := hw f s h
    unfold WriterOps.writeFragments
    dsimp only
    rw [if_neg (by rw [ht]; nofun)]
    obtain ⟨-, b2, b3⟩ := a2 ht
    exact ih a1 (b3.trans ho) (by omega)

end
end Riegeli.Wtr
