import Verif.JoiningReader
import Verif.ChainReaderProofs
/-!
# `JoiningReader` meets the contract of `Reader`
-/
namespace Riegeli.Rdr
namespace JR
variable {σ : Type} {R : ReaderOps σ} {close : σ → Bool} {last : Bool} {D : Bytes}

/-- The shards to be opened, and their data. -/
inductive Rest (R : ReaderOps σ) : List σ → Bytes → Prop
  | nil : Rest R [] []
  | cons {t : σ} {l : List σ} {Dk post : Bytes} {Ek : Prop} {Ik : σ → Prop} : R.Lawful Dk Ek Ik → Ik t → R.ok t = true → Rest R l post →
    Rest R (t :: l) (Dk.drop (R.cursor t) ++ post)

/-- The cursor of the shard `t` is at the position `p`. -/
def At (R : ReaderOps σ) (D : Bytes) (p : Nat) (t : σ) (rest : List σ) : Prop :=
  ∃ (Dk : Bytes) (Ek : Prop) (Ik : σ → Prop) (post : Bytes), R.Lawful Dk Ek Ik ∧ Ik t ∧ Rest R rest post ∧ p ≤ D.length ∧
    D.drop p = Dk.drop (R.cursor t) ++ post

/-- The invariant. -/
def Inv (R : ReaderOps σ) (D : Bytes) (s : JR σ) : Prop :=
  s.len ≤ s.limitPos ∧ s.off ≤ s.len ∧
  match s.shard with
  | none => s.len = 0 ∧ s.limitPos ≤ D.length ∧ Rest R s.rest (D.drop s.limitPos)
  | some t => At R D (s.limitPos - s.len) t s.rest ∧ s.len ≤ R.avail t ∧ (s.ok = true → R.ok t = true)

theorem advance {Dk post : Bytes} {p c k : Nat} (hp : p ≤ D.length) (hd : D.drop p = Dk.drop c ++ post) (hk : c + k ≤ Dk.length) :
    slice D p k = slice Dk c k ∧ D.drop (p + k) = Dk.drop (c + k) ++ post ∧ p + k ≤ D.length := by
  have hl := congrArg List.length hd
  simp only [List.length_append, List.length_drop] at hl
  refine ⟨?_, ?_, by omega⟩
  · unfold slice
    rw [hd, List.take_append_of_le_length (by simp only [List.length_drop]; omega)]
  · rw [← List.drop_drop, hd, List.drop_append_of_le_length (by simp only [List.length_drop]; omega), List.drop_drop]

theorem makeBuffer_inv {t : σ} {rest : List σ} {p : Nat} (h : At R D p t rest) : Inv R D (makeBuffer R t rest p true) ∧
    (makeBuffer R t rest p true).cursor = p := by
  refine ⟨⟨Nat.le_add_left _ _, Nat.zero_le _, ?_, Nat.le_refl _, ?_⟩, ?_⟩
  · show At R D (p + R.avail t - R.avail t) t rest
    rw [Nat.add_sub_cancel]; exact h
  · intro ho
    have ho : (true && R.ok t) = true := ho
    simpa using ho
  · show p + R.avail t - (R.avail t - 0) = p; omega

/-- What is required from the function of the shard: `Tr a x a'` says that `x` was read on the way from `a` to `a'`. -/
structure Spec {α : Type} (R : ReaderOps σ) (f : α → σ → Bool × α × σ) (stuck : α → Bool) (Tr : α → Bytes → α → Prop) (Done : α → Nat → Prop)
    (Part Cont : α → Prop) : Prop where
  step : ∀ (Dk : Bytes) (Ek : Prop) (Ik : σ → Prop), R.Lawful Dk Ek Ik → ∀ a t, Ik t → R.ok t = true → Cont a →
    Ik (f a t).2.2 ∧ R.cursor t ≤ R.cursor (f a t).2.2 ∧ Tr a (slice Dk (R.cursor t) (R.cursor (f a t).2.2 - R.cursor t)) (f a t).2.1 ∧
    ((f a t).1 = true → Done (f a t).2.1 (R.avail (f a t).2.2) ∧ (R.ok (f a t).2.2 = true ∨ R.ahead)) ∧
    ((f a t).1 = false → Part (f a t).2.1 ∧
      (R.ok (f a t).2.2 = false ∨ stuck (f a t).2.1 = true ∨ (Ek ∧ R.cursor (f a t).2.2 = Dk.length ∧ Cont (f a t).2.1)))
  comp : ∀ a x a' y a'', Tr a x a' → stuck a' = false → Cont a' → Tr a' y a'' → Tr a (x ++ y) a''

/-- What a function of the joined reader does. -/
def Outcome {α : Type} (R : ReaderOps σ) (last : Bool) (D : Bytes) (stuck : α → Bool) (Tr : α → Bytes → α → Prop) (Done : α → Nat → Prop)
    (Part Cont : α → Prop) (a : α) (p : Nat) (r : Bool × α × JR σ) : Prop :=
  Inv R D r.2.2 ∧ p ≤ r.2.2.cursor ∧ Tr a (slice D p (r.2.2.cursor - p)) r.2.1 ∧
  (r.1 = true → Done r.2.1 (r.2.2.limitPos - r.2.2.cursor) ∧ (r.2.2.ok = true ∨ R.ahead)) ∧
  (r.1 = false → Part r.2.1 ∧ (stuck r.2.1 = true ∨ r.2.2.len = 0) ∧
    (r.2.2.ok = false ∨ stuck r.2.1 = true ∨ (last = true ∧ r.2.2.cursor = D.length ∧ Cont r.2.1)))

section
variable {α : Type} {f : α → σ → Bool × α × σ} {stuck : α → Bool} {Tr : α → Bytes → α → Prop} {Done : α → Nat → Prop} {Part Cont : α → Prop}

theorem run_spec (S : Spec R f stuck Tr Done Part Cont) (rest : List σ) (a : α) (t : σ) (p : Nat) (h : At R D p t rest) (ho : R.ok t = true)
    (hc : Cont a) : Outcome R last D stuck Tr Done Part Cont a p (run R close last f stuck rest a t p) := by
  induction rest generalizing a t p with
  | nil =>
    obtain ⟨Dk, Ek, Ik, post, L, hi, hr, hp, hd⟩ := h
    obtain ⟨s1, s2, s3, s4, s5⟩ := S.step Dk Ek Ik L a t hi ho hc
    unfold run
    dsimp only
    generalize f a t = r at *
    have hw := L.window _ s1
    obtain ⟨e1, e2, e3⟩ := advance (k := R.cursor r.2.2 - R.cursor t) hp hd (by omega)
    rw [show R.cursor t + (R.cursor r.2.2 - R.cursor t) = R.cursor r.2.2 by omega] at e2
    rw [← e1] at s3
    have hat : At R D (p + (R.cursor r.2.2 - R.cursor t)) r.2.2 [] := ⟨Dk, Ek, Ik, post, L, s1, hr, e3, e2⟩
    generalize R.cursor r.2.2 - R.cursor t = k at *
    split
    · rename_i hb
      obtain ⟨m1, m2⟩ := makeBuffer_inv hat
      refine ⟨m1, Nat.le_trans (Nat.le_add_right _ _) (Nat.le_of_eq m2.symm), ?_, fun _ => ⟨?_, ?_⟩, nofun⟩
      · show Tr a (slice D p (cursor _ - p)) _
        rw [m2, Nat.add_sub_cancel_left]; exact s3
      · show Done _ (p + k + R.avail r.2.2 - cursor _)
        rw [m2, Nat.add_sub_cancel_left]; exact (s4 hb).1
      · show (true && R.ok r.2.2) = true ∨ _
        rw [Bool.true_and]; exact (s4 hb).2
    · rename_i hb
      have hb := (Bool.not_eq_true _).mp hb
      obtain ⟨q1, q2⟩ := s5 hb
      split
      · rename_i hok
        refine ⟨⟨Nat.zero_le _, Nat.zero_le _, hat, Nat.zero_le _, nofun⟩, ?_, ?_, nofun, fun _ => ⟨q1, .inr rfl, .inl rfl⟩⟩
        · show p ≤ p + k; omega
        · show Tr a (slice D p (p + k - p)) _
          rw [Nat.add_sub_cancel_left]; exact s3
      · rename_i hok
        split
        · rename_i hs
          obtain ⟨m1, m2⟩ := makeBuffer_inv hat
          refine ⟨m1, Nat.le_trans (Nat.le_add_right _ _) (Nat.le_of_eq m2.symm), ?_, nofun, fun _ => ⟨q1, .inl hs, .inr (.inl hs)⟩⟩
          show Tr a (slice D p (cursor _ - p)) _
          rw [m2, Nat.add_sub_cancel_left]; exact s3
        · rename_i hs
          obtain ⟨q3, q4, q5⟩ := (q2.resolve_left hok).resolve_left hs
          rw [q4, List.drop_length, List.nil_append] at e2
          have hrest : Rest R [] (D.drop (p + k)) := by rw [e2]; exact hr
          split
          · refine ⟨⟨Nat.zero_le _, Nat.zero_le _, rfl, e3, hrest⟩, ?_, ?_, nofun, fun _ => ⟨q1, .inr rfl, .inl rfl⟩⟩
            · show p ≤ p + k; omega
            · show Tr a (slice D p (p + k - p)) _
              rw [Nat.add_sub_cancel_left]; exact s3
          · refine ⟨⟨Nat.zero_le _, Nat.zero_le _, rfl, e3, hrest⟩, ?_, ?_, nofun, fun _ => ⟨q1, .inr rfl, ?_⟩⟩
            · show p ≤ p + k; omega
            · show Tr a (slice D p (p + k - p)) _
              rw [Nat.add_sub_cancel_left]; exact s3
            · show last = false ∨ _
              cases last with
              | false => exact .inl rfl
              | true =>
                refine .inr (.inr ⟨rfl, ?_, q5⟩)
                show p + k = D.length
                cases hr
                have := congrArg List.length e2
                simp only [List.length_drop, List.length_nil] at this
                omega
  | cons u us ih =>
    obtain ⟨Dk, Ek, Ik, post, L, hi, hr, hp, hd⟩ := h
    obtain ⟨s1, s2, s3, s4, s5⟩ := S.step Dk Ek Ik L a t hi ho hc
    unfold run
    dsimp only
    generalize f a t = r at *
    have hw := L.window _ s1
    obtain ⟨e1, e2, e3⟩ := advance (k := R.cursor r.2.2 - R.cursor t) hp hd (by omega)
    rw [show R.cursor t + (R.cursor r.2.2 - R.cursor t) = R.cursor r.2.2 by omega] at e2
    rw [← e1] at s3
    have hat : At R D (p + (R.cursor r.2.2 - R.cursor t)) r.2.2 (u :: us) := ⟨Dk, Ek, Ik, post, L, s1, hr, e3, e2⟩
    generalize R.cursor r.2.2 - R.cursor t = k at *
    split
    · rename_i hb
      obtain ⟨m1, m2⟩ := makeBuffer_inv hat
      refine ⟨m1, Nat.le_trans (Nat.le_add_right _ _) (Nat.le_of_eq m2.symm), ?_, fun _ => ⟨?_, ?_⟩, nofun⟩
      · show Tr a (slice D p (cursor _ - p)) _
        rw [m2, Nat.add_sub_cancel_left]; exact s3
      · show Done _ (p + k + R.avail r.2.2 - cursor _)
        rw [m2, Nat.add_sub_cancel_left]; exact (s4 hb).1
      · show (true && R.ok r.2.2) = true ∨ _
        rw [Bool.true_and]; exact (s4 hb).2
    · rename_i hb
      have hb := (Bool.not_eq_true _).mp hb
      obtain ⟨q1, q2⟩ := s5 hb
      split
      · rename_i hok
        refine ⟨⟨Nat.zero_le _, Nat.zero_le _, hat, Nat.zero_le _, nofun⟩, ?_, ?_, nofun, fun _ => ⟨q1, .inr rfl, .inl rfl⟩⟩
        · show p ≤ p + k; omega
        · show Tr a (slice D p (p + k - p)) _
          rw [Nat.add_sub_cancel_left]; exact s3
      · rename_i hok
        split
        · rename_i hs
          obtain ⟨m1, m2⟩ := makeBuffer_inv hat
          refine ⟨m1, Nat.le_trans (Nat.le_add_right _ _) (Nat.le_of_eq m2.symm), ?_, nofun, fun _ => ⟨q1, .inl hs, .inr (.inl hs)⟩⟩
          show Tr a (slice D p (cursor _ - p)) _
          rw [m2, Nat.add_sub_cancel_left]; exact s3
        · rename_i hs
          obtain ⟨q3, q4, q5⟩ := (q2.resolve_left hok).resolve_left hs
          rw [q4, List.drop_length, List.nil_append] at e2
          split
          · refine ⟨⟨Nat.zero_le _, Nat.zero_le _, rfl, e3, ?_⟩, ?_, ?_, nofun, fun _ => ⟨q1, .inr rfl, .inl rfl⟩⟩
            · show Rest R (u :: us) (D.drop (p + k))
              rw [e2]; exact hr
            · show p ≤ p + k; omega
            · show Tr a (slice D p (p + k - p)) _
              rw [Nat.add_sub_cancel_left]; exact s3
          · cases hr with
            | cons L' hi' ho' hr' =>
              obtain ⟨i1, i2, i3, i4, i5⟩ := ih r.2.1 u (p + k) ⟨_, _, _, _, L', hi', hr', e3, e2⟩ ho' q5
              generalize run R close last f stuck us r.2.1 u (p + k) = z at *
              refine ⟨i1, by omega, ?_, i4, i5⟩
              have := S.comp _ _ _ _ _ s3 ((Bool.not_eq_true _).mp hs) q5 i3
              rw [slice_append] at this
              rw [show z.2.2.cursor - p = k + (z.2.2.cursor - (p + k)) by omega]
              exact this

theorem go_spec (S : Spec R f stuck Tr Done Part Cont) {a : α} {s : JR σ} (h : Inv R D s) (ho : s.ok = true) (hp : Part a) (hc : Cont a) (hr : Tr a [] a) :
    Outcome R last D stuck Tr Done Part Cont a s.cursor (go R close last f stuck a s) := by
  obtain ⟨sh, rest, len, off, lp, ok⟩ := s
  have ho : ok = true := ho
  subst ho
  obtain ⟨h1, h2, h3⟩ := h
  have h1 : len ≤ lp := h1
  have h2 : off ≤ len := h2
  unfold go
  rw [if_neg (by simp)]
  cases sh with
  | some t =>
    obtain ⟨⟨Dk, Ek, Ik, post, L, hi, hr, hp, hd⟩, hl, hok⟩ := h3
    have hp : lp - len ≤ D.length := hp
    have hd : D.drop (lp - len) = _ := hd
    have hl : len ≤ R.avail t := hl
    have hok := hok rfl
    obtain ⟨m1, m2, m3, m4, m5⟩ := L.move (n := off) hi (by omega)
    have hw := L.window _ m1
    obtain ⟨e1, e2, e3⟩ := advance (k := off) hp hd (by omega)
    have hcur : (JR.mk (some t) rest len off lp true).cursor = lp - len + off := by show lp - (len - off) = _; omega
    rw [hcur]
    show Outcome R last D stuck Tr Done Part Cont a (lp - len + off) (run R close last f stuck rest a (R.move off t) (lp - len + off))
    rw [← m2] at e2
    exact run_spec S rest a _ _ ⟨Dk, Ek, Ik, post, L, m1, hr, e3, e2⟩ (m5.trans hok) hc
  | none =>
    obtain ⟨h4, h5, h6⟩ := h3
    have h4 : len = 0 := h4
    have h5 : lp ≤ D.length := h5
    have h6 : Rest R rest (D.drop lp) := h6
    subst h4
    have hof : off = 0 := by omega
    subst hof
    cases rest with
    | nil =>
      refine ⟨⟨Nat.zero_le _, Nat.zero_le _, rfl, h5, h6⟩, Nat.le_refl _, ?_, nofun, fun _ => ⟨hp, .inr rfl, ?_⟩⟩
      · show Tr a (slice D lp (lp - lp)) a
        rw [Nat.sub_self, slice_zero]; exact hr
      · show last = false ∨ _
        cases last with
        | false => exact .inl rfl
        | true =>
          refine .inr (.inr ⟨rfl, ?_, hc⟩)
          show lp = D.length
          generalize he : D.drop lp = x at h6
          cases h6
          have := congrArg List.length he
          simp only [List.length_drop, List.length_nil] at this
          omega
    | cons u us =>
      show Outcome R last D stuck Tr Done Part Cont a lp (run R close last f stuck us a u lp)
      generalize he : D.drop lp = x at h6
      cases h6 with
      | cons L' hi' ho' hr' => exact run_spec S us a u lp ⟨_, _, _, _, L', hi', hr', h5, he⟩ ho' hc

end

/-! ## The functions -/

theorem pull_step (rec : Nat) : Spec (α := Unit) R (fun _ t => let p := R.pull 1 rec t; (p.1, (), p.2)) (fun _ => false) (fun _ x _ => x = [])
    (fun _ k => 1 ≤ k) (fun _ => True) (fun _ => True) where
  step Dk Ek Ik L a t hi ho _ := by
    obtain ⟨p1, p2, p3, p4, p5⟩ := L.pull 1 rec hi
    dsimp only
    generalize R.pull 1 rec t = r at *
    have hw := L.window _ p1
    refine ⟨p1, by omega, ?_, fun hb => ⟨(p3 hb).1, (p3 hb).2.imp (fun h => h.trans ho) id⟩, fun hb => ⟨trivial, ?_⟩⟩
    · rw [p2, Nat.sub_self, slice_zero]
    · obtain ⟨q1, q2⟩ := p4 hb
      rcases q2 with q2 | ⟨q2, q3⟩
      · exact .inl q2
      · unfold ReaderOps.avail at q1
        exact .inr (.inr ⟨q2, by omega, trivial⟩)
  comp a x a' y a'' h1 _ _ h2 := by rw [h1, h2]; rfl

theorem read_step (k : Kind) : Spec (α := Nat × Bytes) R (fun a t => let p := R.read k a.1 t; (p.1, (a.1 - p.2.1.length, a.2 ++ p.2.1), p.2.2)) (fun _ => false)
    (fun a x a' => x.length ≤ a.1 ∧ a'.1 = a.1 - x.length ∧ a'.2 = a.2 ++ x) (fun a _ => a.1 = 0) (fun a => 0 < a.1) (fun _ => True) where
  step Dk Ek Ik L a t hi ho _ := by
    obtain ⟨p1, ⟨p2, p3, p4, p5⟩, p6⟩ := L.read k a.1 hi
    dsimp only
    generalize R.read k a.1 t = r at *
    have hw := L.window _ p1
    have hl : r.2.1.length = R.cursor r.2.2 - R.cursor t := by rw [p3]; exact slice_length (by omega)
    rw [← p3]
    refine ⟨p1, p2, ⟨?_, rfl, rfl⟩, fun hb => ⟨?_, (p4 hb).2.imp (fun h => h.trans ho) id⟩, fun hb => ⟨?_, ?_⟩⟩
    · cases hb : r.1 with
      | true => have := (p4 hb).1; omega
      | false => have := (p5 hb).1; omega
    · have := (p4 hb).1; show a.1 - r.2.1.length = 0; omega
    · have := (p5 hb).1; show 0 < a.1 - r.2.1.length; omega
    · rcases (p5 hb).2 with q | q
      · exact .inl q
      · exact .inr (.inr ⟨q.1, q.2, trivial⟩)
  comp a x a' y a'' h1 _ _ h2 := by
    obtain ⟨h1, h3, h4⟩ := h1
    obtain ⟨h2, h5, h6⟩ := h2
    refine ⟨?_, ?_, ?_⟩
    · rw [List.length_append]; omega
    · rw [List.length_append]; omega
    · rw [h6, h4, List.append_assoc]

/-- The destination got a prefix of `x`. -/
def Got (d : Dest) (x : Bytes) (d' : Dest) : Prop :=
  (∃ k, k ≤ x.length ∧ d'.written = d.written ++ x.take k ∧ (d'.ok = true → k = x.length)) ∧ (d'.ok = true → d.ok = true)

theorem Got.comp {d d' d'' : Dest} {x y : Bytes} (h : Got d x d') (ho : d'.ok = true) (h' : Got d' y d'') : Got d (x ++ y) d'' := by
  obtain ⟨⟨k, k1, k2, k3⟩, k4⟩ := h
  obtain ⟨⟨j, j1, j2, j3⟩, j4⟩ := h'
  have := k3 ho
  subst this
  refine ⟨⟨x.length + j, ?_, ?_, fun h => ?_⟩, fun h => k4 ho⟩
  · rw [List.length_append]; omega
  · rw [j2, k2, List.take_length, List.append_assoc, List.take_length_add_append]
  · rw [List.length_append, j3 h]

theorem Got.nil (d : Dest) : Got d [] d := ⟨⟨0, Nat.le_refl _, (List.append_nil _).symm, fun _ => rfl⟩, id⟩

theorem got_of {Dk : Bytes} {d d' : Dest} {p m : Nat} (hl : p + m ≤ Dk.length) (h : ∃ k, k ≤ m ∧ d'.written = d.written ++ slice Dk p k ∧ (d'.ok = true → k = m))
    (ho : d'.ok = true → d.ok = true) : Got d (slice Dk p m) d' := by
  obtain ⟨k, k1, k2, k3⟩ := h
  refine ⟨⟨k, by rw [slice_length hl]; exact k1, ?_, fun h => by rw [slice_length hl]; exact k3 h⟩, ho⟩
  rw [k2]
  congr 1
  unfold slice
  rw [List.take_take, Nat.min_eq_left k1]

theorem of_got {d d' : Dest} {p m : Nat} (hl : p + m ≤ D.length) (h : Got d (slice D p m) d') :
    ∃ k, k ≤ m ∧ d'.written = d.written ++ slice D p k ∧ (d'.ok = true → k = m) := by
  obtain ⟨⟨k, k1, k2, k3⟩, _⟩ := h
  rw [slice_length hl] at k1 k3
  refine ⟨k, k1, ?_, k3⟩
  rw [k2]
  congr 1
  unfold slice
  rw [List.take_take, Nat.min_eq_left k1]

theorem copy_step : Spec (α := Nat × Dest) R (fun a t => let p := R.copy a.1 a.2 t; (p.1, (a.1 - (R.cursor p.2.2 - R.cursor t), p.2.1), p.2.2)) (fun a => !a.2.ok)
    (fun a x a' => x.length ≤ a.1 ∧ a'.1 = a.1 - x.length ∧ Got a.2 x a'.2) (fun a _ => a.1 = 0 ∧ a.2.ok = true) (fun a => a.2.ok = true → 0 < a.1) (fun _ => True) where
  step Dk Ek Ik L a t hi ho _ := by
    obtain ⟨p1, ⟨p2, p3, p4, p5, p6, p7⟩, p8⟩ := L.copy a.1 a.2 hi
    dsimp only
    generalize R.copy a.1 a.2 t = r at *
    have hw := L.window _ p1
    have hl : (slice Dk (R.cursor t) (R.cursor r.2.2 - R.cursor t)).length = R.cursor r.2.2 - R.cursor t := slice_length (by omega)
    refine ⟨p1, p2, ⟨by rw [hl]; omega, by rw [hl], got_of (by omega) p4 p7⟩, fun hb => ⟨⟨?_, (p5 hb).2.2⟩, (p5 hb).2.1.imp (fun h => h.trans ho) id⟩,
      fun hb => ⟨fun hd => ?_, ?_⟩⟩
    · have := (p5 hb).1; show a.1 - (R.cursor r.2.2 - R.cursor t) = 0; omega
    · have := (p6 hb hd).1; show 0 < a.1 - (R.cursor r.2.2 - R.cursor t); omega
    · cases hd : r.2.1.ok with
      | false => exact .inr (.inl rfl)
      | true =>
        rcases (p6 hb hd).2 with q | q
        · exact .inl q
        · exact .inr (.inr ⟨q.1, q.2, trivial⟩)
  comp a x a' y a'' h1 hs _ h2 := by
    obtain ⟨h1, h3, h4⟩ := h1
    obtain ⟨h2, h5, h6⟩ := h2
    refine ⟨?_, ?_, h4.comp (by simpa using hs) h6⟩
    · rw [List.length_append]; omega
    · rw [List.length_append]; omega

theorem readSome_step (n : Nat) (hn : 0 < n) : Spec (α := Bytes) R (fun a t => let p := R.readSome .chars n t; (p.1, a ++ p.2.1, p.2.2)) (fun _ => false)
    (fun a x a' => a' = a ++ x ∧ (a = [] → x.length ≤ n)) (fun a _ => a ≠ []) (fun a => a = []) (fun a => a = []) where
  step Dk Ek Ik L a t hi ho ha := by
    obtain ⟨p1, ⟨p2, p3, p4, p5, p6⟩, p7⟩ := L.readSome .chars n hi
    dsimp only
    generalize R.readSome .chars n t = r at *
    have hw := L.window _ p1
    have hl : r.2.1.length = R.cursor r.2.2 - R.cursor t := by rw [p4]; exact slice_length (by omega)
    subst ha
    rw [← p4]
    refine ⟨p1, p2, ⟨rfl, fun _ => by omega⟩, fun hb => ⟨?_, (p5 hb).2.imp (fun h => h.trans ho) id⟩, fun hb => ?_⟩
    · have := (p5 hb).1 hn
      intro h0
      have h0 : r.2.1 = [] := h0
      rw [h0] at hl
      simp only [List.length_nil] at hl
      omega
    · obtain ⟨q1, q2⟩ := p6 hb
      have h0 : [] ++ r.2.1 = [] := by rw [p4, q1, Nat.sub_self, slice_zero]; rfl
      refine ⟨h0, ?_⟩
      rcases q2 with q | q
      · exact .inl q
      · exact .inr (.inr ⟨q.1, by omega, h0⟩)
  comp a x a' y a'' h1 _ hc h2 := by
    obtain ⟨h1, h3⟩ := h1
    obtain ⟨h2, h4⟩ := h2
    subst hc
    have hx : a = [] ∧ x = [] := by
      cases a with
      | nil => exact ⟨rfl, h1.symm⟩
      | cons b l => cases h1
    obtain ⟨rfl, rfl⟩ := hx
    exact ⟨h2, h4⟩

theorem copySome_step (n : Nat) (hn : 0 < n) : Spec (α := Nat × Dest) R (fun a t => let p := R.copySome n a.2 t; (p.1, (a.1 + (R.cursor p.2.2 - R.cursor t), p.2.1), p.2.2))
    (fun a => !a.2.ok) (fun a x a' => a'.1 = a.1 + x.length ∧ (a.1 = 0 → x.length ≤ n) ∧ Got a.2 x a'.2) (fun a _ => 0 < a.1 ∧ a.2.ok = true) (fun _ => True)
    (fun a => a.1 = 0) where
  step Dk Ek Ik L a t hi ho ha := by
    obtain ⟨p1, ⟨p2, p3, p4, p5, p6, p7⟩, p8⟩ := L.copySome n a.2 hi
    dsimp only
    generalize R.copySome n a.2 t = r at *
    have hw := L.window _ p1
    have hl : (slice Dk (R.cursor t) (R.cursor r.2.2 - R.cursor t)).length = R.cursor r.2.2 - R.cursor t := slice_length (by omega)
    refine ⟨p1, p2, ⟨by rw [hl], fun _ => by rw [hl]; omega, got_of (by omega) p4 p7⟩, fun hb => ⟨⟨?_, (p5 hb).2.2⟩, (p5 hb).2.1.imp (fun h => h.trans ho) id⟩,
      fun hb => ⟨trivial, ?_⟩⟩
    · have := (p5 hb).1 hn; show 0 < a.1 + (R.cursor r.2.2 - R.cursor t); omega
    · cases hd : r.2.1.ok with
      | false => exact .inr (.inl rfl)
      | true =>
        rcases p6 hb hd with q | q
        · exact .inl q
        · exact .inr (.inr ⟨q.1, by omega, by show a.1 + (R.cursor r.2.2 - R.cursor t) = 0; omega⟩)
  comp a x a' y a'' h1 hs hc h2 := by
    obtain ⟨h1, h3, h4⟩ := h1
    obtain ⟨h2, h5, h6⟩ := h2
    have := h5 hc
    refine ⟨?_, fun _ => ?_, h4.comp (by simpa using hs) h6⟩
    · rw [List.length_append]; omega
    · rw [List.length_append]; omega

theorem window {s : JR σ} (h : Inv R D s) : s.start ≤ s.cursor ∧ s.cursor ≤ s.limitPos ∧ s.limitPos ≤ D.length ∧ s.limitPos - s.cursor = s.len - s.off := by
  obtain ⟨h1, h2, h3⟩ := h
  refine ⟨?_, ?_, ?_, ?_⟩
  · unfold start cursor; omega
  · unfold cursor; omega
  · cases hs : s.shard with
    | none => rw [hs] at h3; exact h3.2.1
    | some t =>
      rw [hs] at h3
      obtain ⟨⟨Dk, Ek, Ik, post, L, hi, hr, hp, hd⟩, hl, _⟩ := h3
      have hw := L.window _ hi
      unfold ReaderOps.avail at hl
      have := (advance (k := s.len) hp hd (by omega)).2.2
      omega
  · unfold cursor; omega

theorem data {s : JR σ} (h : Inv R D s) : s.buf R = slice D s.start (s.limitPos - s.start) := by
  obtain ⟨h1, h2, h3⟩ := h
  have e : s.limitPos - s.start = s.len := by unfold start; omega
  rw [e]
  unfold buf
  cases hs : s.shard with
  | none =>
    rw [hs] at h3
    rw [h3.1, slice_zero]
  | some t =>
    rw [hs] at h3
    obtain ⟨⟨Dk, Ek, Ik, post, L, hi, hr, hp, hd⟩, hl, _⟩ := h3
    have hw := L.window _ hi
    have hl' := hl
    unfold ReaderOps.avail at hl'
    show R.peek s.len t = _
    rw [L.peek hi hl]
    exact (advance (k := s.len) hp hd (by omega)).1.symm

theorem core_lawful : (core R close last).Lawful D (last = true) (Inv R D) where
  window s h := ⟨(window h).1, (window h).2.1, (window h).2.2.1⟩
  data s h := data h
  setCursor s c h h1 h2 := by
    have h1 : s.start ≤ c := h1
    have h2 : c ≤ s.limitPos := h2
    obtain ⟨g1, g2, g3⟩ := h
    unfold start at h1
    refine ⟨⟨g1, ?_, g3⟩, ?_, rfl, rfl, rfl⟩
    · show c - s.start ≤ s.len; unfold start; omega
    · show s.limitPos - (s.len - (c - s.start)) = c; unfold start; omega
  pullSlow s n rec h ha := by
    have hu : (core R close last).pullSlow n rec s = if n = 1 then s.pull R close last rec else (false, { s with ok := false }) := rfl
    rw [hu]
    by_cases hn : n = 1
    · rw [if_pos hn]
      subst hn
      have hw := window h
      have ha : s.limitPos - s.cursor < 1 := ha
      cases ho : s.ok with
      | false =>
        have e : s.pull R close last rec = (false, s) := by unfold pull go; rw [if_pos ho]
        rw [e]
        exact ⟨h, rfl, nofun, fun _ => ⟨ha, .inl ho⟩, fun _ => ho⟩
      | true =>
        obtain ⟨o1, o2, o3, o4, o5⟩ := go_spec (close := close) (last := last) (pull_step (R := R) rec) h ho trivial trivial (a := ()) rfl
        unfold pull
        dsimp only
        generalize go R close last _ _ () s = r at *
        have hw' := window o1
        have hc : r.2.2.cursor = s.cursor := by
          have := congrArg List.length o3
          rw [slice_length (by omega)] at this
          simp only [List.length_nil] at this
          omega
        refine ⟨o1, hc, fun hb => ⟨(o4 hb).1, ?_⟩, fun hb => ?_, fun h' => ?_⟩
        · rcases (o4 hb).2 with q | q
          · exact .inl (q.trans ho.symm)
          · exact .inr q
        · obtain ⟨_, q1, q2⟩ := o5 hb
          have q1 := q1.resolve_left nofun
          have hl : r.2.2.limitPos - r.2.2.cursor = 0 := by rw [hw'.2.2.2, q1]; omega
          refine ⟨?_, ?_⟩
          · show r.2.2.limitPos - r.2.2.cursor < 1; omega
          · rcases q2 with q2 | q2 | q2
            · exact .inl q2
            · cases q2
            · refine .inr ⟨q2.1, ?_⟩
              show r.2.2.limitPos = D.length
              have := q2.2.1; omega
        · have h' : s.ok = false := h'
          rw [ho] at h'; cases h'
    · rw [if_neg hn]
      obtain ⟨g1, g2, g3⟩ := h
      refine ⟨⟨g1, g2, ?_⟩, rfl, nofun, fun _ => ⟨ha, .inl rfl⟩, fun _ => rfl⟩
      cases hs : s.shard with
      | none => rw [hs] at g3; simp only [hs]; exact g3
      | some t => rw [hs] at g3; simp only [hs]; exact ⟨g3.1, g3.2.1, nofun⟩
  fail s h := by
    obtain ⟨g1, g2, g3⟩ := h
    refine ⟨⟨g1, g2, ?_⟩, rfl, rfl⟩
    show match s.shard with | none => _ | some t => _
    cases hs : s.shard with
    | none => rw [hs] at g3; exact g3
    | some t => rw [hs] at g3; exact ⟨g3.1, g3.2.1, nofun⟩

theorem readSlow_spec {s : JR σ} (k : Kind) (n : Nat) (h : Inv R D s) (hn : 0 < n) :
    Inv R D (s.readSlow R close last k n).2.2 ∧ (behind R close last).ReadPost D (last = true) n s (s.readSlow R close last k n) ∧
    (s.ok = false → (s.readSlow R close last k n).2.2.ok = false) := by
  have hw := window h
  cases ho : s.ok with
  | false =>
    have e : s.readSlow R close last k n = (false, [], s) := by unfold readSlow go; rw [if_pos ho]
    rw [e]
    refine ⟨h, ⟨Nat.le_refl _, ?_, nofun, fun _ => ⟨?_, .inl ho⟩⟩, fun _ => ho⟩
    · show [] = slice D s.cursor (s.cursor - s.cursor)
      rw [Nat.sub_self, slice_zero]
    · show s.cursor < s.cursor + n; omega
  | true =>
    obtain ⟨o1, o2, ⟨t1, t2, t3⟩, o4, o5⟩ := go_spec (close := close) (last := last) (read_step (R := R) k) h ho (a := (n, [])) hn trivial
      ⟨Nat.zero_le _, rfl, rfl⟩
    unfold readSlow
    dsimp only
    generalize go R close last _ _ (n, []) s = r at *
    have hw' := window o1
    rw [slice_length (by omega)] at t1 t2
    have t3 : r.2.1.2 = slice D s.cursor (r.2.2.cursor - s.cursor) := t3
    have t1 : r.2.2.cursor - s.cursor ≤ n := t1
    have t2 : r.2.1.1 = n - (r.2.2.cursor - s.cursor) := t2
    refine ⟨o1, ⟨o2, t3, fun hb => ⟨?_, ?_⟩, fun hb => ⟨?_, ?_⟩⟩, nofun⟩
    · have := (o4 hb).1
      show r.2.2.cursor = s.cursor + n; omega
    · rcases (o4 hb).2 with q | q
      · exact .inl (q.trans ho.symm)
      · exact .inr q
    · have := (o5 hb).1
      show r.2.2.cursor < s.cursor + n; omega
    · rcases (o5 hb).2.2 with q | q | q
      · exact .inl q
      · cases q
      · exact .inr ⟨q.1, q.2.1⟩

theorem copySlow_spec {s : JR σ} (n : Nat) (d : Dest) (h : Inv R D s) (hn : 0 < n) :
    Inv R D (s.copySlow R close last n d).2.2 ∧ (behind R close last).CopyPost D (last = true) n d s (s.copySlow R close last n d) ∧
    (s.ok = false → (s.copySlow R close last n d).2.2.ok = false) := by
  have hw := window h
  cases ho : s.ok with
  | false =>
    have e : s.copySlow R close last n d = (false, d, s) := by unfold copySlow go; rw [if_pos ho]
    rw [e]
    refine ⟨h, ⟨Nat.le_refl _, Nat.le_add_right _ _, ⟨0, Nat.zero_le _, ?_, fun _ => ?_⟩, nofun, fun _ _ => ⟨?_, .inl ho⟩, id⟩, fun _ => ho⟩
    · show d.written = d.written ++ slice D _ 0
      rw [slice_zero, List.append_nil]
    · show 0 = s.cursor - s.cursor; omega
    · show s.cursor < s.cursor + n; omega
  | true =>
    obtain ⟨o1, o2, ⟨t1, t2, t3⟩, o4, o5⟩ := go_spec (close := close) (last := last) (copy_step (R := R)) h ho (a := (n, d)) (fun _ => hn) trivial
      ⟨Nat.zero_le _, rfl, Got.nil d⟩
    unfold copySlow
    dsimp only
    generalize go R close last _ _ (n, d) s = r at *
    have hw' := window o1
    rw [slice_length (by omega)] at t1 t2
    have t1 : r.2.2.cursor - s.cursor ≤ n := t1
    have t2 : r.2.1.1 = n - (r.2.2.cursor - s.cursor) := t2
    have hle : s.cursor + (r.2.2.cursor - s.cursor) ≤ D.length := by omega
    refine ⟨o1, ⟨o2, ?_, of_got hle t3, fun hb => ⟨?_, ?_, (o4 hb).1.2⟩, fun hb hd => ⟨?_, ?_⟩, t3.2⟩, nofun⟩
    · show r.2.2.cursor ≤ s.cursor + n; omega
    · have := (o4 hb).1.1
      show r.2.2.cursor = s.cursor + n; omega
    · rcases (o4 hb).2 with q | q
      · exact .inl (q.trans ho.symm)
      · exact .inr q
    · have := (o5 hb).1 hd
      show r.2.2.cursor < s.cursor + n; omega
    · have hd : r.2.1.2.ok = true := hd
      rcases (o5 hb).2.2 with q | q | q
      · exact .inl q
      · have q : (!r.2.1.2.ok) = true := q
        rw [hd] at q; cases q
      · exact .inr ⟨q.1, q.2.1⟩

theorem readSomeSlow_spec {s : JR σ} (n : Nat) (h : Inv R D s) (hn : 0 < n) :
    Inv R D (s.readSomeSlow R close last n).2.2 ∧ (behind R close last).SomePost D (last = true) n s (s.readSomeSlow R close last n) ∧
    (s.ok = false → (s.readSomeSlow R close last n).2.2.ok = false) := by
  have hw := window h
  cases ho : s.ok with
  | false =>
    have e : s.readSomeSlow R close last n = (false, [], s) := by unfold readSomeSlow go; rw [if_pos ho]
    rw [e]
    refine ⟨h, ⟨Nat.le_refl _, Nat.le_add_right _ _, ?_, nofun, fun _ => ⟨rfl, .inl ho⟩⟩, fun _ => ho⟩
    show [] = slice D s.cursor (s.cursor - s.cursor)
    rw [Nat.sub_self, slice_zero]
  | true =>
    obtain ⟨o1, o2, ⟨t1, t2⟩, o4, o5⟩ := go_spec (close := close) (last := last) (readSome_step (R := R) n hn) h ho (a := []) rfl rfl
      ⟨rfl, fun _ => Nat.zero_le _⟩
    unfold readSomeSlow
    dsimp only
    generalize go R close last _ _ [] s = r at *
    have hw' := window o1
    have t2 := t2 rfl
    have hl : (slice D s.cursor (r.2.2.cursor - s.cursor)).length = r.2.2.cursor - s.cursor := slice_length (by omega)
    rw [hl] at t2
    have t1 : r.2.1 = slice D s.cursor (r.2.2.cursor - s.cursor) := t1
    refine ⟨o1, ⟨o2, ?_, t1, fun hb => ⟨fun _ => ?_, ?_⟩, fun hb => ⟨?_, ?_⟩⟩, nofun⟩
    · show r.2.2.cursor ≤ s.cursor + n; omega
    · show s.cursor < r.2.2.cursor
      refine Nat.lt_of_not_le fun h' => (o4 hb).1 ?_
      rw [t1, show r.2.2.cursor - s.cursor = 0 by omega, slice_zero]
    · rcases (o4 hb).2 with q | q
      · exact .inl (q.trans ho.symm)
      · exact .inr q
    · show r.2.2.cursor = s.cursor
      have := (o5 hb).1
      rw [← t1, this] at hl
      simp only [List.length_nil] at hl
      omega
    · rcases (o5 hb).2.2 with q | q | q
      · exact .inl q
      · cases q
      · refine .inr ⟨q.1, ?_⟩
        show s.cursor = D.length
        have h0 := q.2.2
        rw [← t1, h0] at hl
        simp only [List.length_nil] at hl
        have := q.2.1
        omega

theorem copySomeSlow_spec {s : JR σ} (n : Nat) (d : Dest) (h : Inv R D s) (hn : 0 < n) :
    Inv R D (s.copySomeSlow R close last n d).2.2 ∧ (behind R close last).CopySomePost D (last = true) n d s (s.copySomeSlow R close last n d) ∧
    (s.ok = false → (s.copySomeSlow R close last n d).2.2.ok = false) := by
  have hw := window h
  cases ho : s.ok with
  | false =>
    have e : s.copySomeSlow R close last n d = (false, d, s) := by unfold copySomeSlow go; rw [if_pos ho]
    rw [e]
    refine ⟨h, ⟨Nat.le_refl _, Nat.le_add_right _ _, ⟨0, Nat.zero_le _, ?_, fun _ => ?_⟩, nofun, fun _ _ => .inl ho, id⟩, fun _ => ho⟩
    · show d.written = d.written ++ slice D _ 0
      rw [slice_zero, List.append_nil]
    · show 0 = s.cursor - s.cursor; omega
  | true =>
    obtain ⟨o1, o2, ⟨t1, t2, t3⟩, o4, o5⟩ := go_spec (close := close) (last := last) (copySome_step (R := R) n hn) h ho (a := (0, d)) trivial rfl
      ⟨rfl, fun _ => Nat.zero_le _, Got.nil d⟩
    unfold copySomeSlow
    dsimp only
    generalize go R close last _ _ (0, d) s = r at *
    have hw' := window o1
    have t2 := t2 rfl
    rw [slice_length (by omega)] at t1 t2
    have t1 : r.2.1.1 = 0 + (r.2.2.cursor - s.cursor) := t1
    have hle : s.cursor + (r.2.2.cursor - s.cursor) ≤ D.length := by omega
    refine ⟨o1, ⟨o2, ?_, of_got hle t3, fun hb => ⟨fun _ => ?_, ?_, (o4 hb).1.2⟩, fun hb hd => ?_, t3.2⟩, nofun⟩
    · show r.2.2.cursor ≤ s.cursor + n; omega
    · have := (o4 hb).1.1
      show s.cursor < r.2.2.cursor; omega
    · rcases (o4 hb).2 with q | q
      · exact .inl (q.trans ho.symm)
      · exact .inr q
    · have hd : r.2.1.2.ok = true := hd
      rcases (o5 hb).2.2 with q | q | q
      · exact .inl q
      · have q : (!r.2.1.2.ok) = true := q
        rw [hd] at q; cases q
      · refine .inr ⟨q.1, ?_⟩
        show s.cursor = D.length
        have := q.2.1
        have := q.2.2
        omega

theorem copyBackSlow_spec {s : JR σ} (n : Nat) (d : Dest) (h : Inv R D s) (hn : 0 < n) :
    Inv R D (s.copyBackSlow R close last n d).2.2 ∧ (behind R close last).CopyBackPost D (last = true) n d s (s.copyBackSlow R close last n d) ∧
    (s.ok = false → (s.copyBackSlow R close last n d).2.2.ok = false) := by
  have hw := window h
  unfold copyBackSlow
  split
  · rename_i hle
    obtain ⟨h1, h2, h3⟩ := d.prepend_spec (slice (s.buf R) s.off n)
    have hsl : slice (s.buf R) s.off n = slice D s.cursor n := by
      have := h.1
      have := h.2.1
      rw [data h, show s.limitPos - s.start = s.len by unfold start; omega, slice_slice (by omega)]
      congr 1; unfold start cursor; omega
    rw [hsl] at h1 h2 h3 ⊢
    dsimp only
    have hc : ({ s with off := s.off + n } : JR σ).cursor = s.cursor + n := by
      have := h.1
      have := h.2.1
      show s.limitPos - (s.len - (s.off + n)) = s.limitPos - (s.len - s.off) + n; omega
    refine ⟨⟨h.1, ?_, h.2.2⟩, ⟨?_, Nat.le_of_eq hc, fun hb => ⟨hc, .inl rfl, h1 hb⟩, fun hb ho => ?_, h3⟩, id⟩
    · show s.off + n ≤ s.len
      have := h.2.1; omega
    · show s.cursor ≤ ({ s with off := s.off + n } : JR σ).cursor
      omega
    · have h4 : (d.prepend (slice D s.cursor n)).2.ok = true := ho
      rw [h2 hb] at h4; cases h4
  · split
    · obtain ⟨q1, q2, q3⟩ := d.push_spec n
      dsimp only
      generalize d.push n = p at *
      split
      · rename_i hpb
        have hpo := q2 hpb
        refine ⟨h, ⟨Nat.le_refl _, Nat.le_add_right _ _, nofun, fun _ ho => ?_, fun ho => ?_⟩, id⟩ <;>
        · have ho : p.2.ok = true := ho
          rw [hpo] at ho; cases ho
      · rename_i hpb
        obtain ⟨e1, e2⟩ := q1 ((Bool.not_eq_false _).mp hpb)
        obtain ⟨i1, ⟨i2, i3, i4, i5⟩, i6⟩ := readSlow_spec (close := close) (last := last) .chars n h hn
        generalize s.readSlow R close last .chars n = r at *
        have i2 : s.cursor ≤ r.2.2.cursor := i2
        have i3 : r.2.1 = slice D s.cursor (r.2.2.cursor - s.cursor) := i3
        split
        · rename_i hb
          obtain ⟨j1, j2⟩ := i5 hb
          have j1 : r.2.2.cursor < s.cursor + n := j1
          exact ⟨i1, ⟨i2, Nat.le_of_lt j1, nofun, fun _ _ => ⟨by rw [e1], j1, j2⟩, fun _ => e2⟩, i6⟩
        · rename_i hb
          obtain ⟨j1, j2⟩ := i4 ((Bool.not_eq_false _).mp hb)
          have j1 : r.2.2.cursor = s.cursor + n := j1
          refine ⟨i1, ⟨i2, Nat.le_of_eq j1, fun _ => ⟨j1, j2, ?_, ?_⟩, nofun, fun _ => e2⟩, i6⟩
          · show p.2.ok = true; rw [e1]; exact e2
          · show r.2.1 ++ p.2.written = slice D s.cursor n ++ d.written
            rw [e1, i3, j1, Nat.add_sub_cancel_left]
    · obtain ⟨i1, ⟨i2, i3, i4, i5⟩, i6⟩ := readSlow_spec (close := close) (last := last) .blocks n h hn
      dsimp only
      generalize s.readSlow R close last .blocks n = r at *
      have i2 : s.cursor ≤ r.2.2.cursor := i2
      have i3 : r.2.1 = slice D s.cursor (r.2.2.cursor - s.cursor) := i3
      split
      · rename_i hb
        obtain ⟨j1, j2⟩ := i5 hb
        have j1 : r.2.2.cursor < s.cursor + n := j1
        exact ⟨i1, ⟨i2, Nat.le_of_lt j1, nofun, fun _ _ => ⟨rfl, j1, j2⟩, id⟩, i6⟩
      · rename_i hb
        obtain ⟨j1, j2⟩ := i4 ((Bool.not_eq_false _).mp hb)
        have j1 : r.2.2.cursor = s.cursor + n := j1
        obtain ⟨h1, h2, h3⟩ := d.prepend_spec r.2.1
        refine ⟨i1, ⟨i2, Nat.le_of_eq j1, fun hb' => ⟨j1, j2, (h1 hb').1, ?_⟩, fun hb' ho => ?_, h3⟩, i6⟩
        · show _ = slice D s.cursor n ++ _
          rw [show n = r.2.2.cursor - s.cursor by omega, ← i3]
          exact (h1 hb').2
        · have h5 : (d.prepend r.2.1).2.ok = true := ho
          rw [h2 hb'] at h5; cases h5

theorem readHintSlow_spec {s : JR σ} (n rec : Nat) (h : Inv R D s) :
    Inv R D (s.readHintSlow R last n rec) ∧ (s.readHintSlow R last n rec).cursor = s.cursor ∧ (s.ok = false → (s.readHintSlow R last n rec).ok = false) := by
  cases ho : s.ok with
  | false =>
    have e : s.readHintSlow R last n rec = s := by unfold readHintSlow; rw [if_pos ho]
    rw [e]
    exact ⟨h, rfl, fun _ => ho⟩
  | true =>
    obtain ⟨sh, rest, len, off, lp, ok⟩ := s
    have ho : ok = true := ho
    subst ho
    obtain ⟨h1, h2, h3⟩ := h
    have h1 : len ≤ lp := h1
    have h2 : off ≤ len := h2
    unfold readHintSlow
    rw [if_neg (by simp)]
    cases sh with
    | some t =>
      obtain ⟨⟨Dk, Ek, Ik, post, L, hi, hr, hp, hd⟩, hl, hok⟩ := h3
      have hp : lp - len ≤ D.length := hp
      have hd : D.drop (lp - len) = _ := hd
      have hl : len ≤ R.avail t := hl
      obtain ⟨m1, m2, m3, m4, m5⟩ := L.move (n := off) hi (by omega)
      have hw := L.window _ m1
      obtain ⟨e1, e2, e3⟩ := advance (k := off) hp hd (by omega)
      obtain ⟨k1, k2, k3⟩ := L.readHint n rec m1
      have hcur : (JR.mk (some t) rest len off lp true).cursor = lp - len + off := by show lp - (len - off) = _; omega
      rw [hcur]
      rw [← m2, ← k2] at e2
      show Inv R D (makeBuffer R (R.readHint n rec (R.move off t)) rest (lp - len + off) true) ∧
        (makeBuffer R (R.readHint n rec (R.move off t)) rest (lp - len + off) true).cursor = _ ∧ _
      obtain ⟨b1, b2⟩ := makeBuffer_inv (R := R) (D := D) ⟨Dk, Ek, Ik, post, L, k1, hr, e3, e2⟩
      exact ⟨b1, b2, nofun⟩
    | none =>
      obtain ⟨h4, h5, h6⟩ := h3
      have h4 : len = 0 := h4
      have h5 : lp ≤ D.length := h5
      have h6 : Rest R rest (D.drop lp) := h6
      subst h4
      have hof : off = 0 := by omega
      subst hof
      cases rest with
      | nil => exact ⟨⟨Nat.zero_le _, Nat.zero_le _, rfl, h5, h6⟩, rfl, nofun⟩
      | cons u us =>
        show Inv R D (makeBuffer R (R.readHint n rec u) us lp true) ∧ (makeBuffer R (R.readHint n rec u) us lp true).cursor = lp ∧ _
        generalize he : D.drop lp = x at h6
        cases h6 with
        | cons L' hi' ho' hr' =>
          obtain ⟨k1, k2, k3⟩ := L'.readHint n rec hi'
          obtain ⟨b1, b2⟩ := makeBuffer_inv (R := R) (D := D) ⟨_, _, _, _, L', k1, hr', h5, by rw [k2]; exact he⟩
          exact ⟨b1, b2, nofun⟩

theorem readAvail_spec {s : JR σ} (n : Nat) (h : Inv R D s) (hn : kMaxBytesToCopy < n) (ha : n ≤ s.limitPos - s.cursor)
    (hb : (s.readSlow R close last .blocks n).1 = false) : (s.readSlow R close last .blocks n).2.2.cursor = s.cursor := by
  have hw := window h
  obtain ⟨i1, ⟨i2, i3, i4, i5⟩, i6⟩ := readSlow_spec (close := close) (last := last) .blocks n h (by omega)
  obtain ⟨sh, rest, len, off, lp, ok⟩ := s
  cases ok with
  | false => rfl
  | true =>
    obtain ⟨h1, h2, h3⟩ := h
    have h1 : len ≤ lp := h1
    have h2 : off ≤ len := h2
    have hcur : (JR.mk sh rest len off lp true).cursor = lp - len + off := by show lp - (len - off) = _; omega
    rw [hcur] at ha
    have ha : n ≤ lp - (lp - len + off) := ha
    cases sh with
    | none =>
      have h4 : len = 0 := h3.1
      omega
    | some t =>
      obtain ⟨⟨Dk, Ek, Ik, post, L, hi, hr, hp, hd⟩, hl, hok⟩ := h3
      have hl : len ≤ R.avail t := hl
      obtain ⟨m1, m2, m3, m4, m5⟩ := L.move (n := off) hi (by omega)
      have hav : n ≤ R.avail (R.move off t) := by
        unfold ReaderOps.avail at hl ⊢
        rw [m2, m4]; omega
      have hz := L.read_avail .blocks m1 hav
      obtain ⟨j1, ⟨j2, j3, j4, j5⟩, j6⟩ := L.read .blocks n m1
      have hwm := L.window _ m1
      rw [hcur]
      have hrun : (JR.mk (some t) rest len off lp true).readSlow R close last .blocks n =
          (fun r : Bool × (Nat × Bytes) × JR σ => (r.1, r.2.1.2, r.2.2)) (run R close last (fun a t => let p := R.read .blocks a.1 t;
            (p.1, (a.1 - p.2.1.length, a.2 ++ p.2.1), p.2.2)) (fun _ => false) rest (n, []) (R.move off t) (lp - len + off)) := by
        unfold readSlow go
        rw [if_neg (by simp)]
        show _ = _
        rw [← hcur]
      rw [hrun] at hb ⊢
      dsimp only at hb ⊢
      unfold run at hb ⊢
      dsimp only at hb ⊢
      generalize R.read .blocks n (R.move off t) = r at *
      cases hrb : r.1 with
      | true => rw [hrb] at hb; rw [if_pos rfl] at hb; cases hb
      | false =>
        have hz := hz hrb
        rw [if_neg (by simp)]
        rcases (j5 hrb).2 with q | q
        · rw [if_pos q]
          show lp - len + off + (R.cursor r.2.2 - R.cursor (R.move off t)) - (0 - 0) = _
          omega
        · unfold ReaderOps.avail at hav
          have := q.2
          omega

theorem behind_lawful : (behind R close last).Lawful D (last = true) (Inv R D) :=
  have L := (core_lawful (R := R) (close := close) (last := last) (D := D)).toOps
  { window := L.window
    data := L.data
    setCursor := L.setCursor
    pullSlow := L.pullSlow
    readSlow := fun _ k n h hn _ => readSlow_spec k n h hn
    readAvail := fun _ n h hn ha hb => readAvail_spec n h hn ha hb
    copySlow := fun _ n d h hn _ => copySlow_spec n d h hn
    copyBackSlow := fun _ n d h hn _ => copyBackSlow_spec n d h hn
    readSomeSlow := fun _ n h hn _ => readSomeSlow_spec n h hn
    copySomeSlow := fun _ n d h hn _ => copySomeSlow_spec n d h hn
    readHintSlow := fun _ n rec h _ => readHintSlow_spec n rec h
    seekSlow := L.seekSlow
    sizeImpl := L.sizeImpl }

theorem init_inv {shards : List σ} (h : Rest R shards D) : Inv R D (init shards) := ⟨Nat.zero_le _, Nat.zero_le _, rfl, Nat.zero_le _, h⟩

end JR
end Riegeli.Rdr
