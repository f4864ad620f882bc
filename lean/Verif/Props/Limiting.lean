import Verif.LimitingReaderProofs
import Verif.FragReader
/-!
# C31, C35: `Reader` and `LimitingReader`

`R.Lawful D E Inv` says that `R` is a class of readers which read the data `D` (`E`: the end of `D` is a clean end). The source of
a `LimitingReader` is any such class, hence the theorems hold for every source, for every division of its data into buffers, and
for a source which fails.
-/
namespace Riegeli.Props
open Riegeli Rdr

/-- The histories of a `LimitingReader`: it is created with a limit not smaller than the position of the source, then public
functions are called in any order. The limit is never set below the current position (see finding 18). `scs` are the
`ScopedLimiter`s which exist, the innermost first. -/
inductive LimReach {σ : Type} (R : ReaderOps σ) (Inv : σ → Prop) : List LR.Scope → LR σ → Prop where
  | init {s : σ} (o : LOpts) : Inv s → o.InRange → R.cursor s ≤ o.requested (R.cursor s) → LimReach R Inv [] (LR.init R o s)
  | op {scs l} (op : ROp) : LimReach R Inv scs l → LimReach R Inv scs (op.run (LR.ops R) l)
  | setMaxPos {scs l} (m : Nat) : LimReach R Inv scs l → l.pos ≤ m → m ≤ kMaxPosition → LimReach R Inv scs (l.setMaxPos m)
  | setMaxLength {scs l} (n : Nat) : LimReach R Inv scs l → n ≤ kMaxPosition → LimReach R Inv scs (l.setMaxLength R n)
  | clearLimit {scs l} : LimReach R Inv scs l → LimReach R Inv scs l.clearLimit
  | setExact {scs l} (ex : Bool) : LimReach R Inv scs l → LimReach R Inv scs { l with exact := ex }
  | enter {scs l} (o : LOpts) : LimReach R Inv scs l → l.pos ≤ o.requested l.pos →
      LimReach R Inv ((LR.enter R o l).1 :: scs) (LR.enter R o l).2
  | leave {sc scs l} : LimReach R Inv (sc :: scs) l → l.maxPos ≤ sc.oldMaxPos → LimReach R Inv scs (LR.leave R sc l)

section
variable {σ : Type} {R : ReaderOps σ} {D : Bytes} {E : Prop} {Inv : σ → Prop} {scs : List LR.Scope} {l : LR σ}

theorem LimReach.linv (L : R.Lawful D E Inv) (hD : D.length < kMaxPosition) (h : LimReach R Inv scs l) :
    LR.Any R D Inv l.maxPos l.exact l.failIfLonger (l.ok = false) (· = l.src) l ∧ l.maxPos ≤ kMaxPosition ∧
    ∀ sc ∈ scs, sc.oldMaxPos ≤ kMaxPosition := by
  have fix : ∀ {l : LR σ} {m ex f P Q}, LR.LInv R D Inv m ex f P Q l →
      LR.Any R D Inv l.maxPos l.exact l.failIfLonger (l.ok = false) (· = l.src) l := by
    intro l m ex f P Q h
    have h' := h.rebase
    rw [← h.maxPos, ← h.exact, ← h.fil] at h'
    exact .inl h'
  have fixD : ∀ {l : LR σ} {m ex f}, LR.Dead R D Inv m ex f l →
      LR.Any R D Inv l.maxPos l.exact l.failIfLonger (l.ok = false) (· = l.src) l := by
    intro l m ex f h
    have h' := h
    rw [← h.maxPos, ← h.exact, ← h.fil] at h'
    exact .inr h'
  have fixA : ∀ {l : LR σ} {m ex f P Q}, LR.Any R D Inv m ex f P Q l →
      LR.Any R D Inv l.maxPos l.exact l.failIfLonger (l.ok = false) (· = l.src) l ∧ l.maxPos = m := by
    intro l m ex f P Q h
    rcases h with h | h
    · exact ⟨fix h, h.maxPos⟩
    · exact ⟨fixD h, h.maxPos⟩
  induction h with
  | @init s o hs hr hl =>
    obtain ⟨h1, -⟩ := LR.init_spec L o hs hD hr hl
    refine ⟨fix h1, ?_, by simp⟩
    rw [h1.maxPos]; omega
  | op op h ih =>
    obtain ⟨h1, h2, h3⟩ := ih
    have := fixA (op.meets (LR.lawful L _ _ _ _ _) (by rw [List.length_take]; unfold kMaxPosition at hD; omega) h1).1
    exact ⟨this.1, by rw [this.2]; exact h2, h3⟩
  | @setMaxPos scs l m h hp hm ih =>
    obtain ⟨h1, h2, h3⟩ := ih
    rcases h1 with h1 | h1
    · rw [h1.pos] at hp
      obtain ⟨g1, -⟩ := LR.setMaxPos_spec h1 hp
      exact ⟨fix g1, by rw [g1.maxPos]; exact hm, h3⟩
    · rw [h1.pos] at hp
      obtain ⟨g1, -⟩ := h1.setMaxPos hp
      exact ⟨fixD g1, by rw [g1.maxPos]; exact hm, h3⟩
  | @setMaxLength scs l n h hn ih =>
    obtain ⟨h1, h2, h3⟩ := ih
    rcases h1 with h1 | h1
    · by_cases hlt : l.cur + n < 2 ^ 64
      · obtain ⟨g1, -⟩ := LR.setMaxLength_spec h1 hlt
        exact ⟨fix g1, by rw [g1.maxPos]; unfold kMaxPosition; omega, h3⟩
      · obtain ⟨g1, -⟩ := LR.setMaxLength_overflow (n := n) L h1 h2 hD (by unfold kMaxPosition at hn; omega) (by omega)
        exact ⟨fix g1, by rw [g1.maxPos]; exact Nat.le_refl _, h3⟩
    · obtain ⟨g1, -⟩ := h1.setMaxLength (P := True) (Q := fun _ => True) L h2 hn
      obtain ⟨g1, g2⟩ := fixA g1
      exact ⟨g1, by rw [g2]; omega, h3⟩
  | clearLimit h ih =>
    obtain ⟨h1, h2, h3⟩ := ih
    rcases h1 with h1 | h1
    · exact ⟨fix (LR.clearLimit_spec h1 h2), Nat.le_refl _, h3⟩
    · exact ⟨fixD (h1.clearLimit h2), Nat.le_refl _, h3⟩
  | setExact ex h ih =>
    obtain ⟨h1, h2, h3⟩ := ih
    rcases h1 with h1 | h1
    · exact ⟨fix (LR.setExact_spec h1 ex), h2, h3⟩
    · exact ⟨fixD (h1.setExact ex), h2, h3⟩
  | @enter scs l o h hl ih =>
    obtain ⟨h1, h2, h3⟩ := ih
    rcases h1 with h1 | h1
    · rw [h1.pos] at hl
      obtain ⟨g1, g2, -⟩ := LR.enter_spec L h1 o h2 hl
      refine ⟨fix g1, by rw [g1.maxPos]; omega, ?_⟩
      intro sc hsc
      rcases List.mem_cons.1 hsc with rfl | hsc
      · rw [g2]; exact h2
      · exact h3 sc hsc
    · obtain ⟨g1, g2, -⟩ := h1.enter L o h2 hl
      obtain ⟨g1, g3⟩ := fixA g1
      refine ⟨g1, by rw [g3]; omega, ?_⟩
      intro sc hsc
      rcases List.mem_cons.1 hsc with rfl | hsc
      · rw [g2]; exact h2
      · exact h3 sc hsc
  | @leave sc scs l h hm ih =>
    obtain ⟨h1, h2, h3⟩ := ih
    rcases h1 with h1 | h1
    · obtain ⟨g1, -⟩ := LR.leave_spec L h1 sc hm
      exact ⟨fix g1, by rw [g1.maxPos]; exact h3 sc (by simp), fun sc' h => h3 sc' (by simp [h])⟩
    · obtain ⟨g1, -⟩ := h1.leave sc hm
      exact ⟨fixD g1, by rw [g1.maxPos]; exact h3 sc (by simp), fun sc' h => h3 sc' (by simp [h])⟩

/-- **C31.** At any point of any history of a `LimitingReader`, every function does what it would do for a reader whose data are the
data of the source cut at `max_pos()`. The end of these data is a clean end if the source reaches the limit, or if the source ends
cleanly before it and the limit is not exact. A failed reader stays failed. -/
theorem C31_reads_the_data_up_to_the_limit (L : R.Lawful D E Inv) (hD : D.length < kMaxPosition) (h : LimReach R Inv scs l)
    (op : ROp) :
    op.Meets (LR.ops R) (D.take l.maxPos) (l.maxPos ≤ D.length ∨ (E ∧ l.exact = false)) l ∧
    (l.ok = false → (op.run (LR.ops R) l).ok = false) := by
  obtain ⟨h1, -, -⟩ := h.linv L hD
  exact (op.meets (LR.lawful L _ _ _ _ _) (by rw [List.length_take]; unfold kMaxPosition at hD; omega) h1).2

/-- **C31.** The position, and the data buffered, never exceed the limit nor the data of the source; the settings are changed only by the functions which set
them; and a function leaves the source at a position not exceeding the limit, or does not touch it, or the source failed while seeking
back. -/
theorem C31_never_past_the_limit (L : R.Lawful D E Inv) (hD : D.length < kMaxPosition) (h : LimReach R Inv scs l) :
    l.pos ≤ (LR.ops R).limit l ∧ (LR.ops R).limit l ≤ l.maxPos ∧ (LR.ops R).limit l ≤ D.length ∧
    ∀ op : ROp,
      (op.run (LR.ops R) l).maxPos = l.maxPos ∧ (op.run (LR.ops R) l).exact = l.exact ∧
      (op.run (LR.ops R) l).failIfLonger = l.failIfLonger ∧
      (R.cursor (op.run (LR.ops R) l).src ≤ l.maxPos ∨ (op.run (LR.ops R) l).src = l.src ∨
        R.ok (op.run (LR.ops R) l).src = false) := by
  obtain ⟨h1, -, -⟩ := h.linv L hD
  have LL := LR.lawful L l.maxPos l.exact l.failIfLonger (l.ok = false) (· = l.src)
  have hw := LL.window _ h1
  have hl : (D.take l.maxPos).length = min l.maxPos D.length := List.length_take
  refine ⟨hw.2.1, by omega, by omega, fun op => ?_⟩
  rcases (op.meets LL (by rw [List.length_take]; unfold kMaxPosition at hD; omega) h1).1 with this | this
  · exact ⟨this.maxPos, this.exact, this.fil, this.srcPos.imp id .inl⟩
  · exact ⟨this.maxPos, this.exact, this.fil, .inr (.inr this.srcOk)⟩

/-- **C31.** A function makes the reader fail only if the source failed, or if the limit is exact and the source is shorter. -/
theorem C31_fails_only_if (L : R.Lawful D E Inv) (hD : D.length < kMaxPosition) (h : LimReach R Inv scs l) (op : ROp)
    (hok : l.ok = true) (hf : (op.run (LR.ops R) l).ok = false) :
    R.ok (op.run (LR.ops R) l).src = false ∨ (l.exact = true ∧ D.length < l.maxPos) := by
  obtain ⟨h1, -, -⟩ := h.linv L hD
  have LL := LR.lawful L l.maxPos l.exact l.failIfLonger (l.ok = false) (· = l.src)
  rcases (op.meets LL (by rw [List.length_take]; unfold kMaxPosition at hD; omega) h1).1 with this | this
  · rcases this.why hf with h | h | h
    · exact .inl h
    · exact .inr h
    · rw [hok] at h; cases h
  · exact .inl this.srcOk

/-- **C31.** Creating a `LimitingReader`: it is at the position of the source, with the limit requested (if it is not a position then
there is no limit), and it fails only if the source failed or an exact limit is not a position. -/
theorem C31_create (L : R.Lawful D E Inv) (hD : D.length < kMaxPosition) {s : σ} (o : LOpts) (hs : Inv s) (hr : o.InRange)
    (hl : R.cursor s ≤ o.requested (R.cursor s)) :
    (LR.init R o s).pos = R.cursor s ∧ (LR.init R o s).maxPos = min (o.requested (R.cursor s)) kMaxPosition ∧
    (LR.init R o s).exact = o.exact ∧ (LR.init R o s).failIfLonger = o.failIfLonger ∧
    ((LR.init R o s).ok = false ↔ R.ok s = false ∨ (o.exact = true ∧ kMaxPosition < o.requested (R.cursor s))) := by
  obtain ⟨h1, h2, h3, h4⟩ := LR.init_spec L o hs hD hr hl
  refine ⟨h1.pos.trans h2, h1.maxPos, h1.exact, h3, ?_⟩
  rw [h4]
  cases R.ok s <;> cases o.exact <;> simp

/-- **C31.** Setting the limit does not move the reader (unless it failed before and an exact limit is not a position). -/
theorem C31_set_limit (L : R.Lawful D E Inv) (hD : D.length < kMaxPosition) (h : LimReach R Inv scs l) :
    (∀ m, l.pos ≤ m → (l.setMaxPos m).maxPos = m ∧ (l.setMaxPos m).pos = l.pos ∧ (l.setMaxPos m).ok = l.ok) ∧
    (∀ n, n ≤ kMaxPosition →
      (l.setMaxLength R n).maxPos = min (l.pos + n) kMaxPosition ∧
      (l.ok = true ∨ l.pos + n ≤ kMaxPosition → (l.setMaxLength R n).pos = l.pos) ∧
      (l.setMaxLength R n).ok = (l.ok && !(l.exact && decide (kMaxPosition < l.pos + n)))) ∧
    l.clearLimit.maxPos = kMaxPosition ∧ l.clearLimit.pos = l.pos ∧ l.clearLimit.ok = l.ok := by
  obtain ⟨h1, h2, -⟩ := h.linv L hD
  refine ⟨fun m hm => ?_, fun n hn => ?_, rfl, rfl, rfl⟩
  · rcases h1 with h1 | h1
    · rw [h1.pos] at hm ⊢
      obtain ⟨g1, g2, g3, -⟩ := LR.setMaxPos_spec h1 hm
      exact ⟨g1.maxPos, g1.pos.trans g2, g3⟩
    · rw [h1.pos] at hm ⊢
      obtain ⟨g1, g2, g3⟩ := h1.setMaxPos hm
      exact ⟨g1.maxPos, g1.pos.trans g2, g1.ok.trans h1.ok.symm⟩
  · rcases h1 with h1 | h1
    · rw [h1.pos]
      by_cases hlt : l.cur + n < 2 ^ 64
      · obtain ⟨g1, g2, g3, -⟩ := LR.setMaxLength_spec h1 hlt
        have hk : ¬ kMaxPosition < l.cur + n := by unfold kMaxPosition; omega
        refine ⟨by rw [g1.maxPos]; omega, fun _ => g1.pos.trans g2, ?_⟩
        rw [g3]; simp [hk]
      · obtain ⟨g1, g2, g3, -⟩ := LR.setMaxLength_overflow (n := n) L h1 h2 hD (by unfold kMaxPosition at hn; omega) (by omega)
        have hk : kMaxPosition < l.cur + n := by unfold kMaxPosition; omega
        refine ⟨by rw [g1.maxPos]; omega, fun _ => g1.pos.trans g2, ?_⟩
        rw [g3]; simp [hk]
    · obtain ⟨g1, g2⟩ := h1.setMaxLength (P := True) (Q := fun _ => True) L h2 hn
      refine ⟨g1.elim (fun h => h.maxPos) (fun h => h.maxPos), fun hle => ?_, by rw [g2, h1.ok]; rfl⟩
      have hle : l.pos + n ≤ kMaxPosition := hle.elim (fun h => by rw [h1.ok] at h; cases h) id
      rw [h1.pos] at hle ⊢
      unfold kMaxPosition at hle
      have e : w64 (l.limitPos + n) = l.limitPos + n := Nat.mod_eq_of_lt (by omega)
      unfold LR.setMaxLength
      rw [h1.pos, e]
      dsimp only
      rw [if_neg (by omega), if_neg (by omega)]
      exact h1.pos

/-- **C31.** `Close()` leaves the source at the position of the `LimitingReader`. It fails only if the reader failed, or if
`fail_if_longer()`, the position is at the limit, and the source has more data; it does fail then, unless the source fails. -/
theorem C31_close (L : R.Lawful D E Inv) (hD : D.length < kMaxPosition) (h : LimReach R Inv scs l) :
    (l.ok = true → R.cursor (l.close R).2 = l.pos) ∧
    ((l.close R).1 = true → l.ok = true ∧
      (l.failIfLonger = true → l.pos = l.maxPos → D.length ≤ l.maxPos ∨ R.ok (l.close R).2 = false)) ∧
    ((l.close R).1 = false → l.ok = false ∨ (l.failIfLonger = true ∧ l.pos = l.maxPos ∧ l.maxPos < D.length)) := by
  obtain ⟨h1, -, -⟩ := h.linv L hD
  rcases h1 with h1 | h1
  · have := (LR.close_spec L h1).2
    rw [h1.pos]
    exact this
  · unfold LR.close
    simp [h1.ok]

/-- **C31.** A `ScopedLimiter` restricts the limit further, never extends it, and remembers the settings; the reader fails iff the
requested limit is exact and exceeds the current one. The limit is exact from now on (finding 19). -/
theorem C31_scoped_enter (L : R.Lawful D E Inv) (hD : D.length < kMaxPosition) (h : LimReach R Inv scs l) (o : LOpts)
    (hl : l.pos ≤ o.requested l.pos) :
    (LR.enter R o l).2.maxPos = min l.maxPos (o.requested l.pos) ∧ (l.ok = true → (LR.enter R o l).2.pos = l.pos) ∧
    (LR.enter R o l).2.exact = true ∧
    (LR.enter R o l).2.ok = (l.ok && !(o.exact && decide (l.maxPos < o.requested l.pos))) ∧
    (LR.enter R o l).1 = ⟨l.maxPos, l.exact, o.failIfLonger⟩ := by
  obtain ⟨h1, h2, -⟩ := h.linv L hD
  rcases h1 with h1 | h1
  · rw [h1.pos] at hl ⊢
    obtain ⟨g1, g2, g3, g4, g5, g6⟩ := LR.enter_spec L h1 o h2 hl
    exact ⟨g1.maxPos, fun _ => g1.pos.trans g3, g1.exact, g6, g2⟩
  · obtain ⟨g1, g2, g3⟩ := h1.enter L o h2 hl
    exact ⟨g1.elim (fun h => h.maxPos) (fun h => h.maxPos), (fun h => by rw [h1.ok] at h; cases h), rfl, (by rw [g3, h1.ok]; rfl), g2⟩

/-- **C31.** The end of a `ScopedLimiter` restores the settings and does not move the reader. The reader fails if it was required
that there are no more data, and there are. -/
theorem C31_scoped_leave {sc : LR.Scope} (L : R.Lawful D E Inv) (hD : D.length < kMaxPosition) (h : LimReach R Inv (sc :: scs) l)
    (hm : l.maxPos ≤ sc.oldMaxPos) :
    (LR.leave R sc l).maxPos = sc.oldMaxPos ∧ (LR.leave R sc l).exact = sc.oldExact ∧ (LR.leave R sc l).pos = l.pos ∧
    (l.ok = false → (LR.leave R sc l).ok = false) ∧
    ((LR.leave R sc l).ok = true → sc.failIfLonger = true → l.pos = l.maxPos → min sc.oldMaxPos D.length ≤ l.pos) ∧
    ((LR.leave R sc l).ok = false → l.ok = false ∨ R.ok (LR.leave R sc l).src = false ∨
      (sc.oldExact = true ∧ D.length < sc.oldMaxPos) ∨
      (sc.failIfLonger = true ∧ l.pos = l.maxPos ∧ l.pos < min sc.oldMaxPos D.length)) := by
  obtain ⟨h1, h2, -⟩ := h.linv L hD
  rcases h1 with h1 | h1
  rotate_left
  · obtain ⟨g1, g2⟩ := h1.leave sc hm
    refine ⟨g1.maxPos, g1.exact, by rw [g1.pos, h1.pos, g2], fun _ => g1.ok, fun h => ?_, fun _ => .inl h1.ok⟩
    rw [g1.ok] at h; cases h
  obtain ⟨g1, g2, g3, g4, g5, g6⟩ := LR.leave_spec L h1 sc hm
  rw [h1.pos]
  rw [List.length_take] at g5 g6
  refine ⟨g1.maxPos, g1.exact, g1.pos.trans g2, g4, g5, fun ho => ?_⟩
  rcases g6 ho with h | h | h | h
  · exact .inl h
  · exact .inr (.inl h)
  · exact .inr (.inr (.inl h))
  · exact .inr (.inr (.inr ⟨h.1, h.2.1, by omega⟩))

/-- **C35.** A class of readers whose `PullSlow()` meets its contract, with the default implementations of the other virtual
functions: every public function does what it should, and every state reached meets the contract again. -/
theorem C35_default_functions {C : Core σ} (L : C.Lawful D E Inv) (hD : D.length < 2 ^ 64 - 1) (op : ROp) {s : σ} (h : Inv s) :
    op.Meets C.toOps D E s ∧ Inv (op.run C.toOps s) ∧ (C.ok s = false → C.ok (op.run C.toOps s) = false) := by
  obtain ⟨h1, h2, h3⟩ := op.meets L.toOps hD h
  exact ⟨h2, h1, h3⟩

end

/-! ## Concrete cases -/

/-- 20 bytes 0, 1, … delivered in fragments of 3 bytes or more. -/
def exData : Bytes := (List.range 20).map UInt8.ofNat

def exCore : Core Frag := frag exData (fun p => p % 3 + 2) (fun p => p % 5) none

def exSrc : Frag := ⟨0, 0, 0, true⟩

theorem exCore_lawful : exCore.toOps.Lawful exData ((none : Option Nat) = none) (Frag.Inv exData) := (frag_lawful _ _ _ _).toOps

/-- The hypotheses of the theorems are met by a source in fragments; a history with a scope, a seek back, and a limit change. -/
example : ∃ l, LimReach exCore.toOps (Frag.Inv exData) [⟨12, false, true⟩] l ∧ l.pos = 7 ∧ l.maxPos = 9 := by
  have h0 : LimReach exCore.toOps (Frag.Inv exData) [] (LR.init exCore.toOps ⟨.pos 12, false, false⟩ exSrc) :=
    .init (s := exSrc) _ (by refine ⟨?_, ?_, ?_⟩ <;> decide) (show 12 ≤ kMaxPosition by decide) (by decide)
  have h1 := LimReach.op (.read .chars 5) h0
  have h2 := LimReach.op (.seek 3) h1
  have h3 := LimReach.enter ⟨.length 6, false, true⟩ h2 (by decide +kernel)
  have h4 := LimReach.op (.read .chars 4) h3
  exact ⟨_, h4, by decide +kernel, by decide +kernel⟩

/-- Reading 10 bytes with a limit of 7 reads 7 bytes and does not move the source further. -/
example :
    let l := LR.init exCore.toOps ⟨.pos 7, false, false⟩ exSrc
    let r := (LR.ops exCore.toOps).read .chars 10 l
    r.1 = false ∧ r.2.1 = [0, 1, 2, 3, 4, 5, 6] ∧ r.2.2.ok = true ∧ r.2.2.src.cursor = 7 := by decide +kernel

/-- `Close()` with `fail_if_longer()` fails if there are more data, and does not read them. -/
example :
    let l := LR.init exCore.toOps ⟨.pos 7, false, true⟩ exSrc
    let r := (LR.ops exCore.toOps).read .chars 7 l
    r.1 = true ∧ (r.2.2.close exCore.toOps).1 = false ∧ (r.2.2.close exCore.toOps).2.cursor = 7 := by decide +kernel

/-- Finding 18: a limit below the current position. The reader is at position 10 with the limit 12, and a `ScopedLimiter` with the limit
5 comes and goes. Then `pos()` is 5 although 10 bytes were read, and reading 7 bytes succeeds: it moves the source to 17, past the limit
12. -/
theorem C31_fails_below_position :
    let l := LR.init exCore.toOps ⟨.pos 12, false, false⟩ exSrc
    let l1 := ((LR.ops exCore.toOps).read .chars 10 l).2.2
    let sc := LR.enter exCore.toOps ⟨.pos 5, false, false⟩ l1
    let l2 := LR.leave exCore.toOps sc.1 sc.2
    let r := (LR.ops exCore.toOps).read .chars 7 l2
    l1.pos = 10 ∧ l2.maxPos = 12 ∧ l2.pos = 5 ∧ r.1 = true ∧ r.2.1 = [10, 11, 12, 13, 14, 15, 16] ∧ r.2.2.src.cursor = 17 := by
  decide +kernel

/-- Finding 19: a `ScopedLimiter` whose limit is not exact makes the limit exact: reading a shorter source to its end fails. -/
theorem C31_scoped_limit_is_exact :
    let l := LR.init exCore.toOps ⟨.none, false, false⟩ exSrc
    let sc := LR.enter exCore.toOps ⟨.pos 100, false, false⟩ l
    let r := (LR.ops exCore.toOps).read .chars 50 sc.2
    let r' := (LR.ops exCore.toOps).read .chars 50 (l.setMaxPos 100)
    r.2.1 = exData ∧ r.2.2.ok = false ∧ r'.2.1 = exData ∧ r'.2.2.ok = true := by
  decide +kernel

/-- The class of C35 exists for every data, every fragmentation, and a failure anywhere. -/
example (D : Bytes) (ahead back : Nat → Nat) (bad : Option Nat) (hD : D.length < 2 ^ 64 - 1) (op : ROp) (s : Frag)
    (h : Frag.Inv D s) : op.Meets (frag D ahead back bad).toOps D (bad = none) s :=
  (C35_default_functions (frag_lawful D ahead back bad) hD op h).1

end Riegeli.Props
