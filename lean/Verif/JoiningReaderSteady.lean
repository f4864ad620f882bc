import Verif.JoiningReaderProofs
import Verif.SteadyReader
/-!
# A `JoiningReader` of shards which do not fail does not fail
-/
namespace Riegeli.Rdr
namespace JR
variable {σ : Type} (R : ReaderOps σ) (close : σ → Bool) (last : Bool)

/-- Nothing failed: neither the reader, nor its open shard, nor the shards to be opened. -/
def sound (s : JR σ) : Bool := s.ok && s.shard.all R.ok && s.rest.all R.ok

/-- The class with seeking back and `Size()` taken away, and with `sound` for `ok()`. -/
def forward : ReaderOps (JR σ) :=
  { behind R close last with
    ok := sound R
    seekSlow := fun p s => if p ≤ s.limitPos then (false, s) else (behind R close last).seekSlow p s
    sizeImpl := fun s => (none, s) }

variable {R close last}

theorem run_sound (hc : ∀ t, close t = true) (hl : last = true) {α : Type} {f : α → σ → Bool × α × σ} {stuck : α → Bool}
    (hf : ∀ a t, R.ok (f a t).2.2 = R.ok t) (rest : List σ) (a : α) (t : σ) (p : Nat) :
    sound R (run R close last f stuck rest a t p).2.2 = (R.ok t && rest.all R.ok) := by
  induction rest generalizing a t p with
  | nil =>
    have h := hf a t
    unfold run
    dsimp only
    generalize f a t = r at *
    split
    · show ((true && R.ok r.2.2) && R.ok r.2.2 && _) = _
      rw [h]; cases R.ok t <;> rfl
    · split
      · rename_i ho
        rw [← h, ho]; rfl
      · split
        · show ((true && R.ok r.2.2) && R.ok r.2.2 && _) = _
          rw [h]; cases R.ok t <;> rfl
        · rw [if_neg (by rw [hc]; simp)]
          rename_i ho _
          have ho := (Bool.not_eq_false _).mp ho
          rw [← h, ho, hl]; rfl
  | cons u us ih =>
    have h := hf a t
    unfold run
    dsimp only
    generalize f a t = r at *
    split
    · show ((true && R.ok r.2.2) && R.ok r.2.2 && _) = _
      rw [h]; cases R.ok t <;> rfl
    · split
      · rename_i ho
        rw [← h, ho]; rfl
      · split
        · show ((true && R.ok r.2.2) && R.ok r.2.2 && _) = _
          rw [h]; cases R.ok t <;> rfl
        · rw [if_neg (by rw [hc]; simp), ih]
          rename_i ho _
          have ho := (Bool.not_eq_false _).mp ho
          rw [← h, ho]; rfl

theorem go_sound (hc : ∀ t, close t = true) (hl : last = true) (hm : ∀ c t, R.ok (R.setCursor c t) = R.ok t) {α : Type} {f : α → σ → Bool × α × σ}
    {stuck : α → Bool} (hf : ∀ a t, R.ok (f a t).2.2 = R.ok t) (a : α) (s : JR σ) : sound R (go R close last f stuck a s).2.2 = sound R s := by
  obtain ⟨sh, rest, len, off, lp, ok⟩ := s
  cases ok with
  | false => rfl
  | true =>
    cases sh with
    | some t =>
      show sound R (run R close last f stuck rest a (R.move off t) _).2.2 = _
      rw [run_sound hc hl hf]
      show (R.ok (R.setCursor _ t) && _) = (true && R.ok t && _)
      rw [hm, Bool.true_and]
    | none =>
      cases rest with
      | nil =>
        subst hl
        rfl
      | cons u us =>
        show sound R (run R close last f stuck us a u lp).2.2 = _
        rw [run_sound hc hl hf]
        rfl

section
variable {P : Nat → Prop} (S : Unfailing R P) (h1 : P 1) (hc : ∀ t, close t = true) (hl : last = true)
include S hc hl

theorem readSlow_sound (k : Kind) (n : Nat) (s : JR σ) : sound R (s.readSlow R close last k n).2.2 = sound R s :=
  go_sound hc hl S.setCursor (f := fun a t => let p := R.read k a.1 t; (p.1, (a.1 - p.2.1.length, a.2 ++ p.2.1), p.2.2)) (fun _ _ => S.read _ _ _) (n, []) s

include h1 in
theorem pull_sound (rec : Nat) (s : JR σ) : sound R (s.pull R close last rec).2 = sound R s :=
  go_sound hc hl S.setCursor (f := fun _ t => let p := R.pull 1 rec t; (p.1, (), p.2)) (fun _ _ => S.pull _ _ _ h1) () s

include h1 in
theorem seekLoop_sound (fuel p : Nat) (s : JR σ) : sound R ((core R close last).seekLoop fuel p s).2 = sound R s := by
  induction fuel generalizing s with
  | zero => rfl
  | succ fuel ih =>
    have hp : sound R ((core R close last).pullSlow 1 0 ((core R close last).move ((core R close last).avail s) s)).2 = sound R s := pull_sound S h1 hc hl 0 _
    unfold Core.seekLoop
    dsimp only
    generalize (core R close last).pullSlow 1 0 ((core R close last).move ((core R close last).avail s) s) = r at *
    split
    · exact hp
    · split
      · exact (ih _).trans hp
      · exact hp

theorem copyBackSlow_sound (n : Nat) (d : Dest) (s : JR σ) : sound R (s.copyBackSlow R close last n d).2.2 = sound R s := by
  have hr := fun k => readSlow_sound S hc hl k n s
  unfold copyBackSlow
  split
  · rfl
  · split
    · dsimp only
      have hr := hr .chars
      generalize s.readSlow R close last .chars n = r at *
      split
      · rfl
      · split <;> exact hr
    · dsimp only
      have hr := hr .blocks
      generalize s.readSlow R close last .blocks n = r at *
      split <;> exact hr

omit hc in
theorem readHintSlow_sound (n rec : Nat) (s : JR σ) : sound R (s.readHintSlow R last n rec) = sound R s := by
  have hh : ∀ t, R.ok (R.readHint n rec t) = R.ok t := by
    intro t
    unfold ReaderOps.readHint
    split
    · rfl
    · exact S.readHintSlow _ _ _
  obtain ⟨sh, rest, len, off, lp, ok⟩ := s
  cases ok with
  | false => rfl
  | true =>
    cases sh with
    | some t =>
      have ht : R.ok (R.readHint n rec (R.move off t)) = R.ok t := (hh _).trans (S.setCursor _ _)
      show ((true && R.ok (R.readHint n rec (R.move off t))) && R.ok (R.readHint n rec (R.move off t)) && _) = (true && R.ok t && _)
      rw [ht]; cases R.ok t <;> rfl
    | none =>
      cases rest with
      | nil => subst hl; rfl
      | cons u us =>
        show ((true && R.ok (R.readHint n rec u)) && R.ok (R.readHint n rec u) && us.all R.ok) = (true && true && (R.ok u && us.all R.ok))
        rw [hh]; cases R.ok u <;> rfl

include h1 in
theorem steady : Unfailing (forward R close last) (· = 1) where
  setCursor _ _ := rfl
  pullSlow n rec s hn := by
    subst hn
    exact pull_sound S h1 hc hl rec s
  readSlow k n s := readSlow_sound S hc hl k n s
  copySlow n d s := go_sound hc hl S.setCursor (fun a t => by
    show R.ok (R.copy _ _ t).2.2 = _
    unfold ReaderOps.copy
    split
    · exact S.move _ _
    · exact S.copySlow _ _ _) _ s
  copyBackSlow n d s := copyBackSlow_sound S hc hl n d s
  readSomeSlow n s := go_sound hc hl S.setCursor (fun a t => by
    show R.ok (R.readSome .chars n t).2.2 = _
    unfold ReaderOps.readSome
    dsimp only
    split
    · rw [if_pos (.inl rfl)]; exact S.move _ _
    · rw [if_pos rfl]; exact S.readSomeSlow _ _) _ s
  copySomeSlow n d s := go_sound hc hl S.setCursor (fun a t => by
    show R.ok (R.copySome n _ t).2.2 = _
    unfold ReaderOps.copySome
    dsimp only
    split
    · split
      · exact S.move _ _
      · exact S.copySlow _ _ _
    · exact S.copySomeSlow _ _ _) _ s
  readHintSlow n rec s := readHintSlow_sound S hl n rec s
  seekSlow p s := by
    show sound R (if p ≤ s.limitPos then (false, s) else (core R close last).seekSlow p s).2 = sound R s
    split
    · rfl
    · rename_i hp
      have hp : ¬ p ≤ (core R close last).limit s := hp
      unfold Core.seekSlow
      rw [if_neg hp]
      exact seekLoop_sound S h1 hc hl _ _ _
  sizeImpl _ := rfl
end

/-- Functions which do not seek back and do not ask for the size. -/
def _root_.Riegeli.Rdr.ROp.Forward {σ : Type} (R : ReaderOps σ) (op : ROp) (s : σ) : Prop :=
  match op with
  | .seek p => R.cursor s ≤ p
  | .size => False
  | _ => True

section
variable {D : Bytes} {room : Nat → Nat → Nat}

theorem seekSlow_eq {s : PS (JR σ)} {p : Nat} (h : PS.Inv (behind R close last) D (Inv R D) s) (hp : s.limit (behind R close last) < p) :
    s.seekSlow (forward R close last) p = s.seekSlow (behind R close last) p := by
  have hw := window h.src
  have hc : (behind R close last).start s.src ≤ p := by
    cases hu : s.used with
    | false =>
      rw [PS.limit_unused hu] at hp
      have hp : s.src.limitPos < p := hp
      show s.src.start ≤ p; omega
    | true =>
      rw [PS.limit_used hu] at hp
      have hp : s.src.cursor < p := hp
      show s.src.start ≤ p; omega
  unfold PS.seekSlow
  by_cases hin : p ≤ s.src.limitPos
  · have hu : s.used = true := by
      cases hu : s.used with
      | true => rfl
      | false =>
        rw [PS.limit_unused hu] at hp
        have hp : s.src.limitPos < p := hp
        omega
    have e1 : s.used = true ∧ (forward R close last).start s.sync.src ≤ p ∧ p ≤ (forward R close last).limit s.sync.src := ⟨hu, hc, hin⟩
    have e2 : s.used = true ∧ (behind R close last).start s.sync.src ≤ p ∧ p ≤ (behind R close last).limit s.sync.src := ⟨hu, hc, hin⟩
    dsimp only
    rw [if_pos e1, if_pos e2]
    rfl
  · have e1 : ¬ (s.used = true ∧ (forward R close last).start s.sync.src ≤ p ∧ p ≤ (forward R close last).limit s.sync.src) := fun h => hin h.2.2
    have e2 : ¬ (s.used = true ∧ (behind R close last).start s.sync.src ≤ p ∧ p ≤ (behind R close last).limit s.sync.src) := fun h => hin h.2.2
    dsimp only
    rw [if_neg e1, if_neg e2]
    have e3 : (forward R close last).seekSlow p s.sync.src = (behind R close last).seekSlow p s.sync.src := if_neg hin
    rw [e3]

theorem gather_eq (fuel need most rec : Nat) (s : JR σ) : PS.gather (forward R close last) fuel need most rec s = PS.gather (behind R close last) fuel need most rec s := by
  induction fuel generalizing need most rec s with
  | zero => rfl
  | succ fuel ih =>
    unfold PS.gather
    simp only [ih]
    rfl

theorem pullSlow_eq (n rec : Nat) (s : PS (JR σ)) : s.pullSlow (forward R close last) room n rec = s.pullSlow (behind R close last) room n rec := by
  unfold PS.pullSlow PS.collect
  simp only [gather_eq]
  rfl

theorem pull_eq (n rec : Nat) (s : PS (JR σ)) : (PS.ops (forward R close last) room).pull n rec s = (ops R close last room).pull n rec s := by
  unfold ReaderOps.pull
  show (if _ then _ else s.pullSlow (forward R close last) room n rec) = (if _ then _ else s.pullSlow (behind R close last) room n rec)
  rw [pullSlow_eq]
  rfl

theorem run_eq (hD : D.length < 2 ^ 64 - 1) {s : PS (JR σ)} (h : PS.Inv (behind R close last) D (Inv R D) s) (op : ROp) (hop : op.Forward (ops R close last room) s) :
    op.run (PS.ops (forward R close last) room) s = op.run (ops R close last room) s := by
  have L := PS.lawful (room := room) (behind_lawful (R := R) (close := close) (last := last) (D := D))
  have hw : (ops R close last room).start s ≤ (ops R close last room).cursor s ∧ (ops R close last room).cursor s ≤ (ops R close last room).limit s ∧
    (ops R close last room).limit s ≤ D.length := L.window _ h
  cases op with
  | seek p =>
    have hop : (ops R close last room).cursor s ≤ p := hop
    show ((PS.ops (forward R close last) room).seek p s).2 = ((ops R close last room).seek p s).2
    unfold ReaderOps.seek
    by_cases hin : (ops R close last room).start s ≤ p ∧ p ≤ (ops R close last room).limit s
    · have hin' : (PS.ops (forward R close last) room).start s ≤ p ∧ p ≤ (PS.ops (forward R close last) room).limit s := hin
      rw [if_pos hin, if_pos hin']
      rfl
    · have hin' : ¬ ((PS.ops (forward R close last) room).start s ≤ p ∧ p ≤ (PS.ops (forward R close last) room).limit s) := hin
      rw [if_neg hin, if_neg hin']
      show (s.seekSlow (forward R close last) p).2 = (s.seekSlow (behind R close last) p).2
      rw [seekSlow_eq h]
      have hlt : (ops R close last room).limit s < p := by omega
      exact hlt
  | skip n =>
    show ((PS.ops (forward R close last) room).skip n s).2 = ((ops R close last room).skip n s).2
    unfold ReaderOps.skip
    by_cases hin : n ≤ (ops R close last room).avail s
    · have hin' : n ≤ (PS.ops (forward R close last) room).avail s := hin
      rw [if_pos hin, if_pos hin']
      rfl
    · have hin' : ¬ (n ≤ (PS.ops (forward R close last) room).avail s) := hin
      rw [if_neg hin, if_neg hin']
      unfold ReaderOps.avail at hin
      by_cases hov : 2 ^ 64 - 1 - (ops R close last room).cursor s < n
      · have hov' : 2 ^ 64 - 1 - (PS.ops (forward R close last) room).cursor s < n := hov
        rw [if_pos hov, if_pos hov']
        show (s.seekSlow (forward R close last) _).2 = (s.seekSlow (behind R close last) _).2
        rw [seekSlow_eq h]
        have hlt : (ops R close last room).limit s < 2 ^ 64 - 1 := by omega
        exact hlt
      · have hov' : ¬ (2 ^ 64 - 1 - (PS.ops (forward R close last) room).cursor s < n) := hov
        rw [if_neg hov, if_neg hov']
        show (s.seekSlow (forward R close last) ((ops R close last room).cursor s + n)).2 = (s.seekSlow (behind R close last) ((ops R close last room).cursor s + n)).2
        rw [seekSlow_eq h]
        have hlt : (ops R close last room).limit s < (ops R close last room).cursor s + n := by omega
        exact hlt
  | size => exact hop.elim
  | pull n rec =>
    show ((PS.ops (forward R close last) room).pull n rec s).2 = ((ops R close last room).pull n rec s).2
    rw [pull_eq]
  | read k n => rfl
  | readView n =>
    show ((PS.ops (forward R close last) room).readView n s).2.2 = ((ops R close last room).readView n s).2.2
    unfold ReaderOps.readView
    rw [pull_eq]
    rfl
  | readByte => rfl
  | copy n d => rfl
  | copyBack n d => rfl
  | readSome k n => rfl
  | copySome n d => rfl
  | readHint n rec => rfl

end
end JR

/-! ## A class of readers with different sources -/

/-- Readers of different classes, e.g. of different sources, as one class (`Any<Reader*>`, `joining_reader.h:169-175`). -/
def family {ι σ : Type} (R : ι → ReaderOps σ) : ReaderOps (ι × σ) where
  start s := (R s.1).start s.2
  cursor s := (R s.1).cursor s.2
  limit s := (R s.1).limit s.2
  buf s := (R s.1).buf s.2
  ok s := (R s.1).ok s.2
  setCursor c s := (s.1, (R s.1).setCursor c s.2)
  pullSlow n rec s := let r := (R s.1).pullSlow n rec s.2; (r.1, s.1, r.2)
  readSlow k n s := let r := (R s.1).readSlow k n s.2; (r.1, r.2.1, s.1, r.2.2)
  copySlow n d s := let r := (R s.1).copySlow n d s.2; (r.1, r.2.1, s.1, r.2.2)
  copyBackSlow n d s := let r := (R s.1).copyBackSlow n d s.2; (r.1, r.2.1, s.1, r.2.2)
  readSomeSlow n s := let r := (R s.1).readSomeSlow n s.2; (r.1, r.2.1, s.1, r.2.2)
  copySomeSlow n d s := let r := (R s.1).copySomeSlow n d s.2; (r.1, r.2.1, s.1, r.2.2)
  readHintSlow n rec s := (s.1, (R s.1).readHintSlow n rec s.2)
  seekSlow p s := let r := (R s.1).seekSlow p s.2; (r.1, s.1, r.2)
  sizeImpl s := let r := (R s.1).sizeImpl s.2; (r.1, s.1, r.2)
  ahead := ∃ i, (R i).ahead

theorem family_lawful {ι σ : Type} {R : ι → ReaderOps σ} {i : ι} {D : Bytes} {E : Prop} {I : σ → Prop} (L : (R i).Lawful D E I) :
    (family R).Lawful D E (fun s => s.1 = i ∧ I s.2) where
  window := by rintro ⟨_, s⟩ ⟨rfl, h⟩; exact L.window s h
  data := by rintro ⟨_, s⟩ ⟨rfl, h⟩; exact L.data s h
  setCursor := by
    rintro ⟨_, s⟩ c ⟨rfl, h⟩ h1 h2
    obtain ⟨m1, m2⟩ := L.setCursor s c h h1 h2
    exact ⟨⟨rfl, m1⟩, m2⟩
  pullSlow := by
    rintro ⟨_, s⟩ n rec ⟨rfl, h⟩ h1
    obtain ⟨m1, m2, m3, m4⟩ := L.pullSlow s n rec h h1
    exact ⟨⟨rfl, m1⟩, m2, fun hb => ⟨(m3 hb).1, (m3 hb).2.imp id fun h => ⟨_, h⟩⟩, m4⟩
  readSlow := by
    rintro ⟨_, s⟩ k n ⟨rfl, h⟩ h1 h2
    obtain ⟨m1, ⟨p1, p2, p3, p4⟩, m3⟩ := L.readSlow s k n h h1 h2
    exact ⟨⟨rfl, m1⟩, ⟨p1, p2, fun hb => ⟨(p3 hb).1, (p3 hb).2.imp id fun h => ⟨_, h⟩⟩, p4⟩, m3⟩
  readAvail := by rintro ⟨_, s⟩ n ⟨rfl, h⟩ h1 h2 h3; exact L.readAvail s n h h1 h2 h3
  copySlow := by
    rintro ⟨_, s⟩ n d ⟨rfl, h⟩ h1 h2
    obtain ⟨m1, ⟨p1, p2, p3, p4, p5⟩, m3⟩ := L.copySlow s n d h h1 h2
    exact ⟨⟨rfl, m1⟩, ⟨p1, p2, p3, fun hb => ⟨(p4 hb).1, (p4 hb).2.1.imp id fun h => ⟨_, h⟩, (p4 hb).2.2⟩, p5⟩, m3⟩
  copyBackSlow := by
    rintro ⟨_, s⟩ n d ⟨rfl, h⟩ h1 h2
    obtain ⟨m1, ⟨p1, p2, p4, p5⟩, m3⟩ := L.copyBackSlow s n d h h1 h2
    exact ⟨⟨rfl, m1⟩, ⟨p1, p2, fun hb => ⟨(p4 hb).1, (p4 hb).2.1.imp id fun h => ⟨_, h⟩, (p4 hb).2.2⟩, p5⟩, m3⟩
  readSomeSlow := by
    rintro ⟨_, s⟩ n ⟨rfl, h⟩ h1 h2
    obtain ⟨m1, ⟨p1, p2, p3, p4, p5⟩, m3⟩ := L.readSomeSlow s n h h1 h2
    exact ⟨⟨rfl, m1⟩, ⟨p1, p2, p3, fun hb => ⟨(p4 hb).1, (p4 hb).2.imp id fun h => ⟨_, h⟩⟩, p5⟩, m3⟩
  copySomeSlow := by
    rintro ⟨_, s⟩ n d ⟨rfl, h⟩ h1 h2
    obtain ⟨m1, ⟨p1, p2, p3, p4, p5⟩, m3⟩ := L.copySomeSlow s n d h h1 h2
    exact ⟨⟨rfl, m1⟩, ⟨p1, p2, p3, fun hb => ⟨(p4 hb).1, (p4 hb).2.1.imp id fun h => ⟨_, h⟩, (p4 hb).2.2⟩, p5⟩, m3⟩
  readHintSlow := by
    rintro ⟨_, s⟩ n rec ⟨rfl, h⟩ h1
    obtain ⟨m1, m2⟩ := L.readHintSlow s n rec h h1
    exact ⟨⟨rfl, m1⟩, m2⟩
  seekSlow := by
    rintro ⟨_, s⟩ p ⟨rfl, h⟩ h1
    obtain ⟨m1, ⟨p1, p2, p3, p4⟩, m3⟩ := L.seekSlow s p h h1
    exact ⟨⟨rfl, m1⟩, ⟨p1, p2, fun hb => ⟨(p3 hb).1, (p3 hb).2.imp id fun h => ⟨_, h⟩⟩, p4⟩, m3⟩
  sizeImpl := by
    rintro ⟨_, s⟩ ⟨rfl, h⟩
    obtain ⟨m1, m2, m3, m4⟩ := L.sizeImpl s h
    exact ⟨⟨rfl, m1⟩, m2, fun n hn => ⟨(m3 n hn).1, (m3 n hn).2.1, (m3 n hn).2.2.imp id fun h => ⟨_, h⟩⟩, m4⟩

theorem family_steady {ι σ : Type} {R : ι → ReaderOps σ} {P : Nat → Prop} (S : ∀ i, Unfailing (R i) P) : Unfailing (family R) P where
  setCursor c s := (S s.1).setCursor c s.2
  pullSlow n rec s h := (S s.1).pullSlow n rec s.2 h
  readSlow k n s := (S s.1).readSlow k n s.2
  copySlow n d s := (S s.1).copySlow n d s.2
  copyBackSlow n d s := (S s.1).copyBackSlow n d s.2
  readSomeSlow n s := (S s.1).readSomeSlow n s.2
  copySomeSlow n d s := (S s.1).copySomeSlow n d s.2
  readHintSlow n rec s := (S s.1).readHintSlow n rec s.2
  seekSlow p s := (S s.1).seekSlow p s.2
  sizeImpl s := (S s.1).sizeImpl s.2

end Riegeli.Rdr
