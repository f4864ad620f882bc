import Verif.DigestingReader
import Verif.FragReader
/-!
# Proofs about `DigestingReader`
-/
namespace Riegeli.Rdr.DR
variable {σ : Type} {R : ReaderOps σ} {accepts : Bytes → Bytes → Bool} {D : Bytes} {E : Prop} {Inv : σ → Prop} {p₀ : Nat} {l : DR σ}

/-- What is digested is the data of the source from `p₀` to some position, which is `start_pos()` unless the digester failed. -/
structure WI (R : ReaderOps σ) (D : Bytes) (Inv : σ → Prop) (p₀ : Nat) (l : DR σ) : Prop where
  inv : Inv l.src
  lo : R.cursor l.src ≤ l.cur
  hi : l.cur ≤ R.limit l.src
  from' : p₀ ≤ R.cursor l.src
  dig : ∃ k, k ≤ R.cursor l.src - p₀ ∧ l.digested = slice D p₀ k ∧ (l.digOk = true → k = R.cursor l.src - p₀)
  bad : l.digOk = false → l.ok = false
  srcOk : l.ok = true → R.ok l.src = true

theorem feed_true {bs : Bytes} (h : (l.feed accepts bs).1 = true) :
    (l.feed accepts bs).2 = { l with digested := l.digested ++ bs } ∧ l.digOk = true := by
  unfold feed at h ⊢
  split
  · rename_i hc
    exact ⟨rfl, (Bool.and_eq_true _ _ ▸ hc).1⟩
  · rename_i hc
    rw [if_neg hc] at h
    cases h

theorem feed_false {bs : Bytes} (h : (l.feed accepts bs).1 = false) : (l.feed accepts bs).2 = { l with digOk := false } := by
  unfold feed at h ⊢
  split
  · rename_i hc
    rw [if_pos hc] at h
    cases h
  · rfl

theorem feed_always {bs : Bytes} (ha : ∀ x b, accepts x b = true) (h : l.digOk = true) : (l.feed accepts bs).1 = true := by
  unfold feed
  rw [h, ha]; rfl

/-- The digester did not fail, unless it was failed before, provided that it accepts everything. -/
def Stays (accepts : Bytes → Bytes → Bool) (l l' : DR σ) : Prop := (l'.digOk = true → l.digOk = true) ∧
  ((∀ x b, accepts x b = true) → l.digOk = true → l'.digOk = true)

theorem Stays.rfl : Stays accepts l l := ⟨id, fun _ h => h⟩

theorem Stays.trans {l' l'' : DR σ} (h : Stays accepts l l') (h' : Stays accepts l' l'') : Stays accepts l l'' :=
  ⟨fun h1 => h.1 (h'.1 h1), fun ha h1 => h'.2 ha (h.2 ha h1)⟩

section
variable (L : R.Lawful D E Inv)
include L

theorem sync_spec (h : WI R D Inv p₀ l) :
    let s := l.sync R accepts
    WI R D Inv p₀ s.2 ∧ s.2.cur = l.cur ∧ R.limit s.2.src = R.limit l.src ∧ Stays accepts l s.2 ∧ s.2.broken = l.broken ∧
    (s.1 = true → R.cursor s.2.src = l.cur ∧ s.2.ok = l.ok ∧ s.2.digOk = l.digOk) ∧
    (s.1 = false → s.2.ok = false ∧ s.2.digOk = false ∧ s.2.src = l.src) ∧
    (l.ok = false → s.2.ok = false) := by
  intro s
  obtain ⟨h1, h2, h3, h4, ⟨k, h5, h6, h6'⟩, h7, h8⟩ := h
  have hw := L.window _ h1
  by_cases hz : l.cur - R.cursor l.src = 0
  · have e : s = (true, l) := if_pos hz
    rw [e]
    exact ⟨⟨h1, h2, h3, h4, ⟨k, h5, h6, h6'⟩, h7, h8⟩, rfl, rfl, .rfl, rfl, fun _ => ⟨by show R.cursor l.src = l.cur; omega, rfl, rfl⟩, nofun, id⟩
  · have hp : l.pend R = slice D (R.cursor l.src) (l.cur - R.cursor l.src) := by
      unfold pend
      rw [L.data _ h1, slice_slice (by omega)]
      congr 1; omega
    cases hf : (l.feed accepts (l.pend R)).1 with
    | false =>
      have e : s = (false, { l with digOk := false, ok := false }) := by
        show l.sync R accepts = _
        unfold sync
        rw [if_neg hz]
        dsimp only
        rw [if_pos hf, feed_false hf]
      rw [e]
      refine ⟨⟨h1, h2, h3, h4, ⟨k, h5, h6, nofun⟩, fun _ => rfl, nofun⟩, rfl, rfl, ⟨nofun, fun ha hd => ?_⟩, rfl,
        nofun, fun _ => ⟨rfl, rfl, rfl⟩, fun _ => rfl⟩
      rw [feed_always ha hd] at hf; cases hf
    | true =>
      obtain ⟨e1, e2⟩ := feed_true hf
      have e : s = (true, { l with digested := l.digested ++ l.pend R, src := R.setCursor l.cur l.src }) := by
        show l.sync R accepts = _
        unfold sync
        rw [if_neg hz]
        dsimp only
        rw [if_neg (by rw [hf]; simp), e1]
      obtain ⟨c1, c2, c3, c4, c5⟩ := L.setCursor l.src l.cur h1 (by omega) h3
      rw [e]
      refine ⟨⟨c1, ?_, ?_, ?_, ⟨l.cur - p₀, ?_, ?_, fun _ => ?_⟩, h7, fun ho => c5.trans (h8 ho)⟩, rfl, c4, ⟨id, fun _ h => h⟩, rfl,
        fun _ => ⟨c2, rfl, rfl⟩, nofun, id⟩
      · show R.cursor (R.setCursor l.cur l.src) ≤ l.cur; omega
      · show l.cur ≤ R.limit (R.setCursor l.cur l.src); omega
      · show p₀ ≤ R.cursor (R.setCursor l.cur l.src); omega
      · show l.cur - p₀ ≤ R.cursor (R.setCursor l.cur l.src) - p₀; omega
      · show l.digested ++ l.pend R = _
        rw [hp, h6, h6' e2, show slice D (R.cursor l.src) (l.cur - R.cursor l.src) = slice D (p₀ + (R.cursor l.src - p₀)) (l.cur - R.cursor l.src) by
          congr 1; omega, slice_append]
        congr 1; omega
      · show l.cur - p₀ = R.cursor (R.setCursor l.cur l.src) - p₀; omega

omit L in
/-- Taking the buffer of the source at the same position. -/
theorem make_spec (L : R.Lawful D E Inv) (h : WI R D Inv p₀ l) (hc : R.cursor l.src = l.cur) {s' : σ} (hi : Inv s') (hs : R.cursor s' = l.cur) :
    WI R D Inv p₀ (l.make R s') ∧ (l.make R s').cur = l.cur := by
  obtain ⟨h1, h2, h3, h4, ⟨k, h5, h6, h6'⟩, h7, h8⟩ := h
  have hw := L.window _ hi
  refine ⟨⟨hi, Nat.le_refl _, ?_, ?_, ⟨k, ?_, h6, fun hd => ?_⟩, fun hd => ?_, fun ho => ?_⟩, hs⟩
  · show R.cursor s' ≤ R.limit s'; omega
  · show p₀ ≤ R.cursor s'; omega
  · show k ≤ R.cursor s' - p₀; omega
  · show k = R.cursor s' - p₀
    have := h6' hd
    omega
  · show (l.ok && R.ok s') = false
    rw [h7 hd]; rfl
  · exact (Bool.and_eq_true _ _ ▸ (show (l.ok && R.ok s') = true from ho)).2

omit L in
/-- Digesting what was read from the source, and taking its buffer. -/
theorem feed_make_spec (L : R.Lawful D E Inv) (h : WI R D Inv p₀ l) (hc : R.cursor l.src = l.cur) {s' : σ} (hi : Inv s') (hs : l.cur ≤ R.cursor s') {bs : Bytes}
    (hb : bs = slice D l.cur (R.cursor s' - l.cur)) :
    let f := l.feed accepts bs
    (f.1 = true → WI R D Inv p₀ (f.2.make R s') ∧ (f.2.make R s').ok = (l.ok && R.ok s') ∧ (f.2.make R s').digOk = l.digOk) ∧
    (f.1 = false → ∀ b, WI R D Inv p₀ { f.2.make R s' with ok := false, broken := b } ∧
      ({ f.2.make R s' with ok := false, broken := b } : DR σ).digOk = false) := by
  intro f
  obtain ⟨h1, h2, h3, h4, ⟨k, h5, h6, h6'⟩, h7, h8⟩ := h
  have hw := L.window _ hi
  constructor
  · intro hf
    obtain ⟨e1, e2⟩ := feed_true hf
    have e1 : f.2 = { l with digested := l.digested ++ bs } := e1
    rw [e1]
    refine ⟨⟨hi, Nat.le_refl _, ?_, ?_, ⟨R.cursor s' - p₀, Nat.le_refl _, ?_, fun _ => rfl⟩, fun hd => ?_, fun ho => ?_⟩, rfl, rfl⟩
    · show R.cursor s' ≤ R.limit s'; omega
    · show p₀ ≤ R.cursor s'; omega
    · show l.digested ++ bs = _
      rw [h6, h6' e2, hb, show slice D l.cur (R.cursor s' - l.cur) = slice D (p₀ + (R.cursor l.src - p₀)) (R.cursor s' - l.cur) by congr 1; omega, slice_append]
      congr 1; omega
    · rw [show l.digOk = false from hd] at e2; cases e2
    · exact (Bool.and_eq_true _ _ ▸ (show (l.ok && R.ok s') = true from ho)).2
  · intro hf b
    have e1 : f.2 = { l with digOk := false } := feed_false hf
    rw [e1]
    refine ⟨⟨hi, Nat.le_refl _, ?_, ?_, ⟨k, ?_, h6, nofun⟩, fun _ => rfl, nofun⟩, rfl⟩
    · show R.cursor s' ≤ R.limit s'; omega
    · show p₀ ≤ R.cursor s'; omega
    · show k ≤ R.cursor s' - p₀; omega

theorem fail_spec (h : WI R D Inv p₀ l) :
    WI R D Inv p₀ (l.fail R accepts) ∧ (l.fail R accepts).cur = l.cur ∧ (l.fail R accepts).ok = false ∧ Stays accepts l (l.fail R accepts) := by
  unfold fail
  split
  · rename_i ho
    exact ⟨h, rfl, ho, .rfl⟩
  · rename_i ho
    obtain ⟨a1, a2, a3, a4, a5, a6, a7, a8⟩ := sync_spec (accepts := accepts) L h
    dsimp only
    split
    · rename_i hs
      exact ⟨a1, a2, (a7 hs).1, a4⟩
    · rename_i hs
      obtain ⟨b1, b2, b3⟩ := a6 (by simpa using hs)
      obtain ⟨c1, c2⟩ := make_spec L a1 (b1.trans a2.symm) a1.inv (b1.trans a2.symm)
      exact ⟨⟨c1.inv, c1.lo, c1.hi, c1.from', c1.dig, fun _ => rfl, nofun⟩, c2.trans a2, rfl, a4⟩

theorem pullSlow_spec (h : WI R D Inv p₀ l) (n rec : Nat) (hn : R.limit l.src - l.cur < n) :
    let r := l.pullSlow R accepts n rec
    WI R D Inv p₀ r.2 ∧ r.2.cur = l.cur ∧ Stays accepts l r.2 ∧
    (r.1 = true → n ≤ R.limit r.2.src - r.2.cur ∧ (r.2.ok = l.ok ∨ R.ahead)) ∧
    (r.1 = false → R.limit r.2.src - r.2.cur < n ∧ (r.2.ok = false ∨ (E ∧ R.limit r.2.src = D.length))) ∧
    (l.ok = false → r.2.ok = false) := by
  intro r
  cases ho : l.ok with
  | false =>
    have e : r = (false, l) := if_pos ho
    rw [e]
    exact ⟨h, rfl, .rfl, nofun, fun _ => ⟨hn, .inl ho⟩, fun _ => ho⟩
  | true =>
    obtain ⟨a1, a2, a3, a4, a5, a6, a7, a8⟩ := sync_spec (accepts := accepts) L h
    cases hs : (l.sync R accepts).1 with
    | false =>
      have e : r = (false, (l.sync R accepts).2) := by
        show l.pullSlow R accepts n rec = _
        unfold pullSlow
        rw [if_neg (by rw [ho]; simp)]
        dsimp only
        rw [if_pos hs]
      rw [e]
      refine ⟨a1, a2, a4, nofun, fun _ => ⟨?_, .inl (a7 hs).1⟩, nofun⟩
      show R.limit (l.sync R accepts).2.src - (l.sync R accepts).2.cur < n
      omega
    | true =>
      obtain ⟨b1, b2, b3⟩ := a6 hs
      obtain ⟨c1, c2, c3, c4, c5⟩ := L.pull n rec a1.inv
      have e : r = ((R.pull n rec (l.sync R accepts).2.src).1, (l.sync R accepts).2.make R (R.pull n rec (l.sync R accepts).2.src).2) := by
        show l.pullSlow R accepts n rec = _
        unfold pullSlow
        rw [if_neg (by rw [ho]; simp)]
        dsimp only
        rw [if_neg (by rw [hs]; simp)]
      obtain ⟨d1, d2⟩ := make_spec L a1 (b1.trans a2.symm) c1 (c2.trans (b1.trans a2.symm))
      rw [e]
      generalize R.pull n rec (l.sync R accepts).2.src = q at *
      refine ⟨d1, d2.trans a2, a4, fun hq => ⟨(c3 hq).1, ?_⟩, fun hq => ⟨(c4 hq).1, ?_⟩, nofun⟩
      · refine (c3 hq).2.imp (fun hk => ?_) id
        show ((l.sync R accepts).2.ok && R.ok q.2) = true
        rw [hk, a1.srcOk (b2.trans ho), b2, ho]; rfl
      · refine (c4 hq).2.imp (fun hk => ?_) id
        show ((l.sync R accepts).2.ok && R.ok q.2) = false
        rw [hk, Bool.and_false]

theorem core_lawful : (core R accepts).Lawful D E (WI R D Inv p₀) where
  window l h := ⟨h.lo, h.hi, (L.window _ h.inv).2.2⟩
  data l h := by
    have hw := L.window _ h.inv
    show slice (R.buf l.src) _ _ = slice D (R.cursor l.src) (R.limit l.src - R.cursor l.src)
    rw [L.data _ h.inv, slice_slice (by omega)]
    congr 1; omega
  setCursor l c h h1 h2 := ⟨⟨h.inv, h1, h2, h.from', h.dig, h.bad, h.srcOk⟩, rfl, rfl, rfl, rfl⟩
  pullSlow l n rec h hn := by
    obtain ⟨a1, a2, a3, a4, a5, a6⟩ := pullSlow_spec (accepts := accepts) L h n rec hn
    exact ⟨a1, a2, a4, a5, a6⟩
  fail l h := by
    obtain ⟨a1, a2, a3, a4⟩ := fail_spec (accepts := accepts) L h
    exact ⟨a1, a2, a3⟩

theorem readSlow_spec (h : WI R D Inv p₀ l) (kd : Kind) (n : Nat) :
    let r := l.readSlow R accepts kd n
    (0 < n → WI R D Inv p₀ r.2.2 ∧ l.cur ≤ r.2.2.cur ∧ r.2.2.cur ≤ l.cur + n ∧ Stays accepts l r.2.2 ∧
    (r.2.2.digOk = true → (ops R accepts).ReadPost D E n l r) ∧ (r.2.2.digOk = false → r.1 = false) ∧
    (l.ok = false → r.2.2.ok = false)) := by
  intro r hn
  cases ho : l.ok with
  | false =>
    have e : r = (false, [], l) := if_pos ho
    rw [e]
    refine ⟨h, Nat.le_refl _, Nat.le_add_right _ _, .rfl, fun _ => ⟨Nat.le_refl _, ?_, nofun, fun _ => ⟨?_, .inl ho⟩⟩, fun _ => rfl, fun _ => ho⟩
    · show [] = slice D l.cur (l.cur - l.cur)
      rw [Nat.sub_self, slice_zero]
    · show l.cur < l.cur + n; omega
  | true =>
    obtain ⟨a1, a2, a3, a4, a5, a6, a7, a8⟩ := sync_spec (accepts := accepts) L h
    cases hs : (l.sync R accepts).1 with
    | false =>
      have e : r = (false, [], (l.sync R accepts).2) := by
        show l.readSlow R accepts kd n = _
        unfold readSlow
        rw [if_neg (by rw [ho]; simp)]
        dsimp only
        rw [if_pos hs]
      rw [e]
      refine ⟨a1, ?_, ?_, a4, fun hd => ?_, fun _ => rfl, nofun⟩
      · show l.cur ≤ (l.sync R accepts).2.cur; omega
      · show (l.sync R accepts).2.cur ≤ l.cur + n; omega
      · exact (Bool.false_ne_true ((a7 hs).2.1.symm.trans hd)).elim
    | true =>
      obtain ⟨b1, b2, b3⟩ := a6 hs
      obtain ⟨c1, ⟨c2, c3, c4, c5⟩, c6⟩ := L.read kd n a1.inv
      have e : r = (let r := R.read kd n (l.sync R accepts).2.src
          if r.2.1 = [] then (r.1, [], (l.sync R accepts).2.make R r.2.2)
          else
            let f := (l.sync R accepts).2.feed accepts r.2.1
            if f.1 = false then
              (false, if kd = .chars then r.2.1 else [], { f.2.make R r.2.2 with ok := false, broken := true })
            else (r.1, r.2.1, f.2.make R r.2.2)) := by
        show l.readSlow R accepts kd n = _
        unfold readSlow
        rw [if_neg (by rw [ho]; simp)]
        dsimp only
        rw [if_neg (by rw [hs]; simp)]
      have hle : R.cursor (R.read kd n (l.sync R accepts).2.src).2.2 ≤ l.cur + n := by
        cases hb : (R.read kd n (l.sync R accepts).2.src).1 with
        | true => have := (c4 hb).1; omega
        | false => have := (c5 hb).1; omega
      dsimp only at e
      have hsrc : R.ok (l.sync R accepts).2.src = true := a1.srcOk (b2.trans ho)
      rw [b1] at c2 c3 c4 c5
      generalize R.read kd n (l.sync R accepts).2.src = q at *
      have hcur : (l.sync R accepts).2.cur = l.cur := a2
      -- the result for the source is the result for `l`
      have post : ∀ z : DR σ, z.cur = R.cursor q.2.2 → z.ok = R.ok q.2.2 → (ops R accepts).ReadPost D E n l (q.1, q.2.1, z) := by
        intro z hz hzo
        refine ⟨?_, ?_, fun hb => ?_, fun hb => ?_⟩
        · show l.cur ≤ z.cur; omega
        · show q.2.1 = slice D l.cur (z.cur - l.cur)
          rw [hz]; exact c3
        · obtain ⟨d1, d2⟩ := c4 hb
          refine ⟨hz.trans d1, ?_⟩
          refine d2.imp (fun d2 => ?_) id
          show z.ok = l.ok
          rw [hzo, d2, hsrc, ho]
        · obtain ⟨d1, d2⟩ := c5 hb
          refine ⟨?_, ?_⟩
          · show z.cur < l.cur + n; omega
          · show z.ok = false ∨ (E ∧ z.cur = D.length)
            rw [hzo, hz]; exact d2
      by_cases hq : q.2.1 = []
      · rw [if_pos hq] at e
        have hsame : R.cursor q.2.2 = l.cur := by
          have h1 := congrArg List.length (hq.symm.trans c3)
          have hw := L.window _ c1
          rw [slice_length (by omega)] at h1
          simp only [List.length_nil] at h1
          omega
        obtain ⟨d1, d2⟩ := make_spec L a1 (b1.trans a2.symm) c1 (hsame.trans a2.symm)
        rw [e]
        refine ⟨d1, ?_, ?_, a4, fun hd => ?_, fun hd => ?_, nofun⟩
        · show l.cur ≤ R.cursor q.2.2; omega
        · exact hle
        · have := post ((l.sync R accepts).2.make R q.2.2) rfl (by show ((l.sync R accepts).2.ok && R.ok q.2.2) = _; rw [b2, ho]; rfl)
          rw [hq] at this
          exact this
        · have h1 := d1.bad hd
          have h2 : (l.sync R accepts).2.digOk = false := hd
          have h3 := a1.bad h2
          rw [b2, ho] at h3; cases h3
      · rw [if_neg hq] at e
        obtain ⟨f1, f2⟩ := feed_make_spec (accepts := accepts) (bs := q.2.1) L a1 (b1.trans a2.symm) c1 (by omega) (by rw [a2]; exact c3)
        cases hf : ((l.sync R accepts).2.feed accepts q.2.1).1 with
        | false =>
          rw [if_pos hf] at e
          obtain ⟨g1, g2⟩ := f2 hf true
          rw [e]
          refine ⟨g1, ?_, ?_, ⟨fun hd => ?_, fun ha hd => ?_⟩, fun hd => ?_, fun _ => rfl, nofun⟩
          · show l.cur ≤ R.cursor q.2.2; omega
          · exact hle
          · exact (Bool.false_ne_true (g2.symm.trans hd)).elim
          · rw [feed_always ha (b3.trans hd)] at hf; cases hf
          · exact (Bool.false_ne_true (g2.symm.trans hd)).elim
        | true =>
          rw [if_neg (by rw [hf]; simp)] at e
          obtain ⟨g1, g2, g3⟩ := f1 hf
          rw [e]
          refine ⟨g1, ?_, ?_, ⟨fun hd => ?_, fun ha hd => ?_⟩, fun hd => ?_, fun hd => ?_, nofun⟩
          · show l.cur ≤ R.cursor q.2.2; omega
          · exact hle
          · exact a4.1 (g3.symm.trans hd)
          · exact g3.trans (a4.2 ha hd)
          · exact post _ rfl (by rw [g2, b2, ho]; rfl)
          · have h2 : (l.sync R accepts).2.digOk = false := g3.symm.trans hd
            have h3 := a1.bad h2
            rw [b2, ho] at h3; cases h3

theorem readSomeSlow_spec (h : WI R D Inv p₀ l) (n : Nat) :
    let r := l.readSomeSlow R accepts n
    WI R D Inv p₀ r.2.2 ∧ l.cur ≤ r.2.2.cur ∧ r.2.2.cur ≤ l.cur + n ∧ Stays accepts l r.2.2 ∧
    (r.2.2.digOk = true → (ops R accepts).SomePost D E n l r) ∧ (l.ok = false → r.2.2.ok = false) := by
  intro r
  cases ho : l.ok with
  | false =>
    have e : r = (false, [], l) := if_pos ho
    rw [e]
    refine ⟨h, Nat.le_refl _, Nat.le_add_right _ _, .rfl, fun _ => ⟨Nat.le_refl _, Nat.le_add_right _ _, ?_, nofun, fun _ => ⟨rfl, .inl ho⟩⟩, fun _ => ho⟩
    show [] = slice D l.cur (l.cur - l.cur)
    rw [Nat.sub_self, slice_zero]
  | true =>
    obtain ⟨a1, a2, a3, a4, a5, a6, a7, a8⟩ := sync_spec (accepts := accepts) L h
    cases hs : (l.sync R accepts).1 with
    | false =>
      have e : r = (false, [], (l.sync R accepts).2) := by
        show l.readSomeSlow R accepts n = _
        unfold readSomeSlow
        rw [if_neg (by rw [ho]; simp)]
        dsimp only
        rw [if_pos hs]
      rw [e]
      refine ⟨a1, ?_, ?_, a4, fun hd => ?_, nofun⟩
      · show l.cur ≤ (l.sync R accepts).2.cur; omega
      · show (l.sync R accepts).2.cur ≤ l.cur + n; omega
      · exact (Bool.false_ne_true ((a7 hs).2.1.symm.trans hd)).elim
    | true =>
      obtain ⟨b1, b2, b3⟩ := a6 hs
      obtain ⟨c1, ⟨c2, c2', c3, c4, c5⟩, c6⟩ := L.readSome .chars n a1.inv
      have e : r = (let r := R.readSome .chars n (l.sync R accepts).2.src
          if r.1 then
            let f := (l.sync R accepts).2.feed accepts r.2.1
            if f.1 = false then (false, r.2.1, { f.2.make R r.2.2 with ok := false, broken := true })
            else (true, r.2.1, f.2.make R r.2.2)
          else (false, r.2.1, (l.sync R accepts).2.make R r.2.2)) := by
        show l.readSomeSlow R accepts n = _
        unfold readSomeSlow
        rw [if_neg (by rw [ho]; simp)]
        dsimp only
        rw [if_neg (by rw [hs]; simp)]
      dsimp only at e
      have hsrc : R.ok (l.sync R accepts).2.src = true := a1.srcOk (b2.trans ho)
      rw [b1] at c2 c2' c3 c4 c5
      generalize R.readSome .chars n (l.sync R accepts).2.src = q at *
      cases hq : q.1 with
      | true =>
        rw [if_pos hq] at e
        obtain ⟨f1, f2⟩ := feed_make_spec (accepts := accepts) (bs := q.2.1) L a1 (b1.trans a2.symm) c1 (by omega) (by rw [a2]; exact c3)
        cases hf : ((l.sync R accepts).2.feed accepts q.2.1).1 with
        | false =>
          rw [if_pos hf] at e
          obtain ⟨g1, g2⟩ := f2 hf true
          rw [e]
          refine ⟨g1, c2, c2', ⟨fun hd => ?_, fun ha hd => ?_⟩, fun hd => ?_, nofun⟩
          · exact (Bool.false_ne_true (g2.symm.trans hd)).elim
          · rw [feed_always ha (b3.trans hd)] at hf; cases hf
          · exact (Bool.false_ne_true (g2.symm.trans hd)).elim
        | true =>
          rw [if_neg (by rw [hf]; simp)] at e
          obtain ⟨g1, g2, g3⟩ := f1 hf
          rw [e]
          refine ⟨g1, c2, c2', ⟨fun hd => a4.1 (g3.symm.trans hd), fun ha hd => g3.trans (a4.2 ha hd)⟩,
            fun hd => ⟨c2, c2', c3, fun _ => ⟨(c4 hq).1, ?_⟩, nofun⟩, nofun⟩
          refine (c4 hq).2.imp (fun d2 => ?_) id
          show (((l.sync R accepts).2.feed accepts q.2.1).2.make R q.2.2).ok = l.ok
          rw [g2, b2, d2, hsrc, ho]; rfl
      | false =>
        rw [if_neg (by rw [hq]; simp)] at e
        obtain ⟨x1, x2⟩ := c5 hq
        obtain ⟨d1, d2⟩ := make_spec L a1 (b1.trans a2.symm) c1 (x1.trans a2.symm)
        rw [e]
        refine ⟨d1, c2, c2', a4, fun hd => ⟨c2, c2', c3, nofun, fun _ => ⟨x1, ?_⟩⟩, nofun⟩
        refine x2.imp (fun x2 => ?_) id
        show ((l.sync R accepts).2.ok && R.ok q.2.2) = false
        rw [x2, Bool.and_false]

theorem readHintSlow_spec (h : WI R D Inv p₀ l) (n rec : Nat) :
    let r := l.readHintSlow R accepts n rec
    WI R D Inv p₀ r ∧ r.cur = l.cur ∧ Stays accepts l r ∧ (l.ok = false → r.ok = false) := by
  intro r
  cases ho : l.ok with
  | false =>
    have e : r = l := if_pos ho
    rw [e]
    exact ⟨h, rfl, .rfl, fun _ => ho⟩
  | true =>
    obtain ⟨a1, a2, a3, a4, a5, a6, a7, a8⟩ := sync_spec (accepts := accepts) L h
    cases hs : (l.sync R accepts).1 with
    | false =>
      have e : r = (l.sync R accepts).2 := by
        show l.readHintSlow R accepts n rec = _
        unfold readHintSlow
        rw [if_neg (by rw [ho]; simp)]
        dsimp only
        rw [if_pos hs]
      rw [e]
      exact ⟨a1, a2, a4, nofun⟩
    | true =>
      obtain ⟨b1, b2, b3⟩ := a6 hs
      obtain ⟨c1, c2, c3⟩ := L.readHint n rec a1.inv
      have e : r = (l.sync R accepts).2.make R (R.readHint n rec (l.sync R accepts).2.src) := by
        show l.readHintSlow R accepts n rec = _
        unfold readHintSlow
        rw [if_neg (by rw [ho]; simp)]
        dsimp only
        rw [if_neg (by rw [hs]; simp)]
      obtain ⟨d1, d2⟩ := make_spec L a1 (b1.trans a2.symm) c1 (c2.trans (b1.trans a2.symm))
      rw [e]
      exact ⟨d1, d2.trans a2, a4, nofun⟩

theorem sizeImpl_spec (h : WI R D Inv p₀ l) :
    let r := l.sizeImpl R accepts
    WI R D Inv p₀ r.2 ∧ r.2.cur = l.cur ∧ Stays accepts l r.2 ∧
    (∀ n, r.1 = some n → (E → n = D.length) ∧ D.length ≤ n ∧ (r.2.ok = l.ok ∨ R.ahead)) ∧
    (r.1 = none → r.2.ok = false) ∧ (l.ok = false → r.2.ok = false) := by
  intro r
  cases ho : l.ok with
  | false =>
    have e : r = (none, l) := if_pos ho
    rw [e]
    exact ⟨h, rfl, .rfl, nofun, fun _ => ho, fun _ => ho⟩
  | true =>
    obtain ⟨a1, a2, a3, a4, a5, a6, a7, a8⟩ := sync_spec (accepts := accepts) L h
    cases hs : (l.sync R accepts).1 with
    | false =>
      have e : r = (none, (l.sync R accepts).2) := by
        show l.sizeImpl R accepts = _
        unfold sizeImpl
        rw [if_neg (by rw [ho]; simp)]
        dsimp only
        rw [if_pos hs]
      rw [e]
      exact ⟨a1, a2, a4, nofun, fun _ => (a7 hs).1, nofun⟩
    | true =>
      obtain ⟨b1, b2, b3⟩ := a6 hs
      obtain ⟨c1, c2, c3, c4, c5⟩ := L.sizeImpl _ a1.inv
      have e : r = ((R.sizeImpl (l.sync R accepts).2.src).1, (l.sync R accepts).2.make R (R.sizeImpl (l.sync R accepts).2.src).2) := by
        show l.sizeImpl R accepts = _
        unfold sizeImpl
        rw [if_neg (by rw [ho]; simp)]
        dsimp only
        rw [if_neg (by rw [hs]; simp)]
      obtain ⟨d1, d2⟩ := make_spec L a1 (b1.trans a2.symm) c1 (c2.trans (b1.trans a2.symm))
      rw [e]
      refine ⟨d1, d2.trans a2, a4, fun n hn => ⟨(c3 n hn).1, (c3 n hn).2.1, (c3 n hn).2.2.imp (fun hk => ?_) id⟩, fun hn => ?_, nofun⟩
      · show ((l.sync R accepts).2.ok && R.ok (R.sizeImpl (l.sync R accepts).2.src).2) = true
        rw [hk, a1.srcOk (b2.trans ho), b2, ho]; rfl
      · show ((l.sync R accepts).2.ok && R.ok (R.sizeImpl (l.sync R accepts).2.src).2) = false
        rw [c4 hn, Bool.and_false]

theorem readAvail_spec (h : WI R D Inv p₀ l) (n : Nat) (ha : n ≤ R.limit l.src - l.cur) :
    let r := l.readSlow R accepts .blocks n
    r.2.2.digOk = true → r.1 = false → r.2.2.cur = l.cur := by
  intro r hd hb
  cases ho : l.ok with
  | false =>
    have e : r = (false, [], l) := if_pos ho
    rw [e]
  | true =>
    obtain ⟨a1, a2, a3, a4, a5, a6, a7, a8⟩ := sync_spec (accepts := accepts) L h
    cases hs : (l.sync R accepts).1 with
    | false =>
      have e : r = (false, [], (l.sync R accepts).2) := by
        show l.readSlow R accepts .blocks n = _
        unfold readSlow
        rw [if_neg (by rw [ho]; simp)]
        dsimp only
        rw [if_pos hs]
      rw [e]
      exact a2
    | true =>
      obtain ⟨b1, b2, b3⟩ := a6 hs
      have e : r = (let r := R.read .blocks n (l.sync R accepts).2.src
          if r.2.1 = [] then (r.1, [], (l.sync R accepts).2.make R r.2.2)
          else
            let f := (l.sync R accepts).2.feed accepts r.2.1
            if f.1 = false then
              (false, if Kind.blocks = .chars then r.2.1 else [], { f.2.make R r.2.2 with ok := false, broken := true })
            else (r.1, r.2.1, f.2.make R r.2.2)) := by
        show l.readSlow R accepts .blocks n = _
        unfold readSlow
        rw [if_neg (by rw [ho]; simp)]
        dsimp only
        rw [if_neg (by rw [hs]; simp)]
      dsimp only at e
      have key := L.read_avail (n := n) .blocks a1.inv (by unfold ReaderOps.avail; omega)
      obtain ⟨c1, ⟨c2, c3, c4, c5⟩, c6⟩ := L.read .blocks n a1.inv
      generalize R.read .blocks n (l.sync R accepts).2.src = q at *
      split at e
      · rw [e] at hb ⊢
        exact (key hb).trans b1
      · split at e
        · rename_i hf
          rw [e] at hd
          have h1 := feed_false hf
          have h2 : ((l.sync R accepts).2.feed accepts q.2.1).2.digOk = true := hd
          rw [h1] at h2; cases h2
        · rw [e] at hb ⊢
          exact (key hb).trans b1

theorem copyBackSlow_spec (h : WI R D Inv p₀ l) (n : Nat) (hn : 0 < n) (d : Dest) :
    let r := l.copyBackSlow R accepts n d
    WI R D Inv p₀ r.2.2 ∧ l.cur ≤ r.2.2.cur ∧ r.2.2.cur ≤ l.cur + n ∧ Stays accepts l r.2.2 ∧
    (r.2.2.digOk = true → (ops R accepts).CopyBackPost D E n d l r) ∧ (l.ok = false → r.2.2.ok = false) := by
  intro r
  have Lc := core_lawful (accepts := accepts) (p₀ := p₀) L
  have hr : r = l.copyBackSlow R accepts n d := rfl
  unfold copyBackSlow at hr
  split at hr
  · rename_i hle
    have hle' : n ≤ R.limit l.src - l.cur := hle
    obtain ⟨m1, m2, m3, m4, m5⟩ := Lc.move h hle
    obtain ⟨h1, h2, h3⟩ := d.prepend_spec ((core R accepts).peek n l)
    rw [hr]
    refine ⟨m1, Nat.le_add_right _ _, Nat.le_refl _, ⟨id, fun _ h => h⟩, fun _ => ⟨Nat.le_add_right _ _, Nat.le_refl _, fun hb => ⟨rfl, .inl rfl, (h1 hb).1, ?_⟩,
      fun hb ho => (Bool.false_ne_true ((h2 hb).symm.trans ho)).elim, h3⟩, id⟩
    show _ = slice D l.cur n ++ _
    rw [← show (core R accepts).peek n l = slice D l.cur n from Lc.peek h hle]
    exact (h1 hb).2
  · rename_i hle
    split at hr
    · have hpush : ((d.push n).1 = true → (d.push n).2 = d ∧ d.ok = true) ∧ ((d.push n).1 = false → (d.push n).2.ok = false) := by
        unfold Dest.push
        split
        · rename_i ho; exact ⟨by simp, fun _ => ho⟩
        · rename_i ho
          split
          · exact ⟨fun _ => ⟨rfl, by simpa using ho⟩, by simp⟩
          · exact ⟨by simp, fun _ => rfl⟩
      dsimp only at hr
      generalize d.push n = p at *
      cases hpb : p.1 with
      | false =>
        rw [if_pos hpb] at hr
        rw [hr]
        have hpo := hpush.2 hpb
        exact ⟨h, Nat.le_refl _, Nat.le_add_right _ _, .rfl, fun _ => ⟨Nat.le_refl _, Nat.le_add_right _ _, nofun,
          fun _ ho => (Bool.false_ne_true (hpo.symm.trans ho)).elim, fun ho => (Bool.false_ne_true (hpo.symm.trans ho)).elim⟩, id⟩
      | true =>
        rw [if_neg (by rw [hpb]; simp)] at hr
        obtain ⟨e1, e2⟩ := hpush.1 hpb
        obtain ⟨i1, i2, i3, i4, i5, i6, i7⟩ := readSlow_spec (accepts := accepts) L h .chars n hn
        generalize l.readSlow R accepts .chars n = q at *
        cases hb : q.1 with
        | false =>
          rw [if_pos hb] at hr
          rw [hr]
          refine ⟨i1, i2, i3, i4, fun hd => ?_, i7⟩
          obtain ⟨j1, j2, j3, j4⟩ := i5 hd
          exact ⟨i2, i3, nofun, fun _ _ => ⟨by rw [e1], (j4 hb).1, (j4 hb).2⟩, fun _ => e2⟩
        | true =>
          rw [if_neg (by rw [hb]; simp)] at hr
          rw [hr]
          refine ⟨i1, i2, i3, i4, fun hd => ?_, i7⟩
          obtain ⟨j1, j2, j3, j4⟩ := i5 hd
          obtain ⟨k1, k2⟩ := j3 hb
          have k1 : q.2.2.cur = l.cur + n := k1
          have j2 : q.2.1 = slice D l.cur (q.2.2.cur - l.cur) := j2
          refine ⟨i2, i3, fun _ => ⟨k1, k2, ?_, ?_⟩, nofun, fun _ => e2⟩
          · show p.2.ok = true; rw [e1]; exact e2
          · show q.2.1 ++ p.2.written = slice D l.cur n ++ d.written
            rw [e1, j2, k1, Nat.add_sub_cancel_left]
    · obtain ⟨i1, i2, i3, i4, i5, i6, i7⟩ := readSlow_spec (accepts := accepts) L h .blocks n hn
      dsimp only at hr
      generalize l.readSlow R accepts .blocks n = q at *
      cases hb : q.1 with
      | false =>
        rw [if_pos hb] at hr
        rw [hr]
        refine ⟨i1, i2, i3, i4, fun hd => ?_, i7⟩
        obtain ⟨j1, j2, j3, j4⟩ := i5 hd
        exact ⟨i2, i3, nofun, fun _ _ => ⟨rfl, (j4 hb).1, (j4 hb).2⟩, id⟩
      | true =>
        rw [if_neg (by rw [hb]; simp)] at hr
        rw [hr]
        refine ⟨i1, i2, i3, i4, fun hd => ?_, i7⟩
        obtain ⟨j1, j2, j3, j4⟩ := i5 hd
        obtain ⟨k1, k2⟩ := j3 hb
        have k1 : q.2.2.cur = l.cur + n := k1
        have j2 : q.2.1 = slice D l.cur (q.2.2.cur - l.cur) := j2
        obtain ⟨h1, h2, h3⟩ := d.prepend_spec q.2.1
        refine ⟨i2, i3, fun hb' => ⟨k1, k2, (h1 hb').1, ?_⟩, fun hb' ho => (Bool.false_ne_true ((h2 hb').symm.trans ho)).elim, h3⟩
        show _ = slice D l.cur n ++ _
        rw [show n = q.2.2.cur - l.cur by omega, ← j2]
        exact (h1 hb').2
/-- `DigestingReader` meets the contract of `Reader`, if the digester does not fail. -/
theorem lawful (ha : ∀ x b, accepts x b = true) : (ops R accepts).Lawful D E (fun l => WI R D Inv p₀ l ∧ l.digOk = true) := by
  have Lc : (core R accepts).Lawful D E (fun l => WI R D Inv p₀ l ∧ l.digOk = true) := by
    have Lc := core_lawful (accepts := accepts) (p₀ := p₀) L
    refine ⟨fun l h => Lc.window l h.1, fun l h => Lc.data l h.1, fun l c h h1 h2 => ?_, fun l n rec h hn => ?_, fun l h => ?_⟩
    · obtain ⟨a1, a2⟩ := Lc.setCursor l c h.1 h1 h2
      exact ⟨⟨a1, h.2⟩, a2⟩
    · obtain ⟨a1, a2, a3, a4, a5, a6⟩ := pullSlow_spec (accepts := accepts) L h.1 n rec hn
      exact ⟨⟨a1, a3.2 ha h.2⟩, a2, a4, a5, a6⟩
    · obtain ⟨a1, a2, a3, a4⟩ := fail_spec (accepts := accepts) L h.1
      exact ⟨⟨a1, a4.2 ha h.2⟩, a2, a3⟩
  have Lo := Lc.toOps
  refine ⟨Lo.window, Lo.data, Lo.setCursor, Lo.pullSlow, fun l k n h hn hp => ?_, fun l n h hn hav hb => ?_, Lo.copySlow, fun l n d h hn hp => ?_,
    fun l n h hn h0 => ?_, Lo.copySomeSlow, fun l n rec h hn => ?_, Lo.seekSlow, fun l h => ?_⟩
  · obtain ⟨a1, a2, a3, a4, a5, a6, a7⟩ := readSlow_spec (accepts := accepts) L h.1 k n hn
    exact ⟨⟨a1, a4.2 ha h.2⟩, a5 (a4.2 ha h.2), a7⟩
  · obtain ⟨a1, a2, a3, a4, a5, a6, a7⟩ := readSlow_spec (accepts := accepts) L h.1 .blocks n (by omega)
    exact readAvail_spec (accepts := accepts) L h.1 n hav (a4.2 ha h.2) hb
  · obtain ⟨a1, a2, a3, a4, a5, a6⟩ := copyBackSlow_spec (accepts := accepts) L h.1 n hn d
    exact ⟨⟨a1, a4.2 ha h.2⟩, a5 (a4.2 ha h.2), a6⟩
  · obtain ⟨a1, a2, a3, a4, a5, a6⟩ := readSomeSlow_spec (accepts := accepts) L h.1 n
    exact ⟨⟨a1, a4.2 ha h.2⟩, a5 (a4.2 ha h.2), a6⟩
  · obtain ⟨a1, a2, a3, a4⟩ := readHintSlow_spec (accepts := accepts) L h.1 n rec
    exact ⟨⟨a1, a3.2 ha h.2⟩, a2, a4⟩
  · obtain ⟨a1, a2, a3, a4, a5, a6⟩ := sizeImpl_spec (accepts := accepts) L h.1
    exact ⟨⟨a1, a3.2 ha h.2⟩, a2, a4, a5, a6⟩

theorem read_spec (h : WI R D Inv p₀ l) (k : Kind) (n : Nat) :
    let r := (ops R accepts).read k n l
    WI R D Inv p₀ r.2.2 ∧ (r.2.2.digOk = true → (ops R accepts).ReadPost D E n l r) ∧ (l.ok = false → r.2.2.ok = false) ∧
    (n ≤ R.limit l.src - l.cur → r.2.2.digOk = true → r.1 = false → r.2.2.cur = l.cur) := by
  intro r
  have Lo := (core_lawful (accepts := accepts) (p₀ := p₀) L).toOps
  have hr : r = (ops R accepts).read k n l := rfl
  unfold ReaderOps.read at hr
  split at hr
  · rename_i hc
    rw [hr]
    have hm := Lo.move h hc.1
    exact ⟨hm.1, fun _ => Lo.readPost_fast h hc.1, fun ho => ho, fun _ _ => nofun⟩
  · rename_i hc
    have hn : 0 < n := by
      rcases Nat.eq_zero_or_pos n with h0 | h0
      · rw [h0] at hc
        exact absurd ⟨Nat.zero_le _, .inr (Nat.zero_le _)⟩ hc
      · exact h0
    obtain ⟨a1, a2, a3, a4, a5, a6, a7⟩ := readSlow_spec (accepts := accepts) L h k n hn
    rw [hr]
    refine ⟨a1, a5, a7, fun hav hd hb => ?_⟩
    cases k with
    | chars => exact absurd ⟨hav, .inl rfl⟩ hc
    | blocks => exact readAvail_spec (accepts := accepts) L h n hav hd hb

theorem readSome_spec (h : WI R D Inv p₀ l) (k : Kind) (n : Nat) :
    let r := (ops R accepts).readSome k n l
    WI R D Inv p₀ r.2.2 ∧ (r.2.2.digOk = true → (ops R accepts).SomePost D E n l r) ∧ (l.ok = false → r.2.2.ok = false) := by
  intro r
  have Lo := (core_lawful (accepts := accepts) (p₀ := p₀) L).toOps
  have hr : r = (ops R accepts).readSome k n l := rfl
  have hav : (ops R accepts).avail l = R.limit l.src - l.cur := rfl
  unfold ReaderOps.readSome at hr
  split at hr
  · rename_i hc
    rw [hav] at hc
    have h0 : 0 < n → 0 < min n (R.limit l.src - l.cur) := by omega
    have hle : min n (R.limit l.src - l.cur) ≤ R.limit l.src - l.cur := Nat.min_le_right _ _
    dsimp only at hr
    split at hr
    · rw [hr]
      have hm := Lo.move h hle
      exact ⟨hm.1, fun _ => Lo.somePost_of_read h (Lo.readPost_fast h hle) (Nat.min_le_left _ _) hle h0 nofun, fun ho => ho⟩
    · rename_i hk
      rw [hav] at hk hr
      have hn : 0 < min n (R.limit l.src - l.cur) := by
        rcases Nat.eq_zero_or_pos n with h1 | h1
        · rw [h1] at hk
          exact absurd (.inr (by simp)) hk
        · exact h0 h1
      obtain ⟨a1, a2, a3, a4, a5, a6, a7⟩ := readSlow_spec (accepts := accepts) L h k _ hn
      rw [hr]
      refine ⟨a1, fun hd => Lo.somePost_of_read h (a5 hd) (Nat.min_le_left _ _) hle h0 (fun hb => ?_), a7⟩
      cases k with
      | chars => exact absurd (.inl rfl) hk
      | blocks => exact readAvail_spec (accepts := accepts) L h _ hle hd hb
  · rename_i hc
    rw [hav] at hc
    split at hr
    · obtain ⟨a1, a2, a3, a4, a5, a6⟩ := readSomeSlow_spec (accepts := accepts) L h n
      rw [hr]
      exact ⟨a1, a5, a6⟩
    · obtain ⟨hi, hcur, hst, ht, hf, ho⟩ := pullSlow_spec (accepts := accepts) L h 1 n (by omega)
      dsimp only at hr
      have hr : r = if (l.pullSlow R accepts 1 n).1 then (ops R accepts).read k (min n (R.limit (l.pullSlow R accepts 1 n).2.src - (l.pullSlow R accepts 1 n).2.cur))
          (l.pullSlow R accepts 1 n).2 else (false, [], (l.pullSlow R accepts 1 n).2) := hr
      generalize l.pullSlow R accepts 1 n = q at *
      cases hb : q.1 with
      | true =>
        rw [if_pos hb] at hr
        obtain ⟨g1, g2, g3, g4⟩ := read_spec (accepts := accepts) L hi k (min n (R.limit q.2.src - q.2.cur))
        rw [hr]
        refine ⟨g1, fun hd => ?_, fun h' => g3 (ho h')⟩
        have g5 := Lo.somePost_of_read (m := n) hi (g2 hd) (Nat.min_le_left _ _) (Nat.min_le_right _ _) (by have := (ht hb).1; omega)
          (g4 (Nat.min_le_right _ _) hd)
        obtain ⟨x1, x2, x3, x4, x5⟩ := g5
        have e : (ops R accepts).cursor q.2 = l.cur := hcur
        have e' : (core R accepts).toOps.cursor q.2 = l.cur := hcur
        rw [e'] at x1 x2 x3 x4 x5
        exact ⟨x1, x2, x3, fun hq => ⟨(x4 hq).1, ReaderOps.Keeps.trans (ht hb).2 (x4 hq).2⟩, x5⟩
      | false =>
        rw [if_neg (by rw [hb]; simp)] at hr
        obtain ⟨f1, f2⟩ := hf hb
        have hw := L.window _ hi.inv
        have hhi := hi.hi
        rw [hr]
        refine ⟨hi, fun _ => ⟨?_, ?_, ?_, nofun, fun _ => ⟨hcur, ?_⟩⟩, ho⟩
        · show l.cur ≤ q.2.cur; omega
        · show q.2.cur ≤ l.cur + n; omega
        · show [] = slice D l.cur (q.2.cur - l.cur)
          rw [hcur, Nat.sub_self, slice_zero]
        · refine f2.imp id fun f2 => ⟨f2.1, ?_⟩
          show l.cur = D.length
          omega

/-- Every public function does what it should, unless the digester fails. -/
theorem meets (hD : D.length < 2 ^ 64 - 1) (op : ROp) (h : WI R D Inv p₀ l) :
    let r := op.run (ops R accepts) l
    WI R D Inv p₀ r ∧ (r.digOk = true → op.Meets (ops R accepts) D E l) ∧ (l.ok = false → r.ok = false) := by
  have Lo := (core_lawful (accepts := accepts) (p₀ := p₀) L).toOps
  have via : ∀ op : ROp, op.run (core R accepts).toOps l = op.run (ops R accepts) l →
      (op.Meets (core R accepts).toOps D E l → op.Meets (ops R accepts) D E l) →
      WI R D Inv p₀ (op.run (ops R accepts) l) ∧ ((op.run (ops R accepts) l).digOk = true → op.Meets (ops R accepts) D E l) ∧
      (l.ok = false → (op.run (ops R accepts) l).ok = false) := by
    intro op h1 h2
    obtain ⟨a1, a2, a3⟩ := ROp.meets Lo hD op h
    rw [h1] at a1 a3
    exact ⟨a1, fun _ => h2 a2, a3⟩
  cases op with
  | pull n rec => exact via (.pull n rec) rfl id
  | readView n => exact via (.readView n) rfl id
  | readByte => exact via .readByte rfl id
  | copy n d => exact via (.copy n d) rfl id
  | copySome n d => exact via (.copySome n d) rfl id
  | seek p => exact via (.seek p) rfl id
  | skip n => exact via (.skip n) rfl id
  | read k n =>
    obtain ⟨a1, a2, a3, a4⟩ := read_spec (accepts := accepts) L h k n
    exact ⟨a1, a2, a3⟩
  | readSome k n => exact readSome_spec (accepts := accepts) L h k n
  | copyBack n d =>
    intro r
    have hr : r = ((ops R accepts).copyBack n d l).2.2 := rfl
    show _ ∧ (_ → (ops R accepts).CopyBackPost D E n d l ((ops R accepts).copyBack n d l)) ∧ _
    by_cases hc : n ≤ R.limit l.src - l.cur ∧ n ≤ kMaxBytesToCopy
    · have e : (ops R accepts).copyBack n d l = (core R accepts).toOps.copyBack n d l := by
        have e1 : (ops R accepts).copyBack n d l =
          ((d.prepend ((core R accepts).peek n l)).1, (d.prepend ((core R accepts).peek n l)).2, (core R accepts).move n l) := if_pos hc
        have e2 : (core R accepts).toOps.copyBack n d l =
          ((d.prepend ((core R accepts).peek n l)).1, (d.prepend ((core R accepts).peek n l)).2, (core R accepts).move n l) := if_pos hc
        exact e1.trans e2.symm
      obtain ⟨a1, a2, a3⟩ := Lo.copyBack n d h
      rw [hr, e]
      exact ⟨a1, fun _ => a2, a3⟩
    · have e : (ops R accepts).copyBack n d l = l.copyBackSlow R accepts n d := if_neg hc
      have hn : 0 < n := by
        rcases Nat.eq_zero_or_pos n with h1 | h1
        · rw [h1] at hc
          exact absurd ⟨Nat.zero_le _, Nat.zero_le _⟩ hc
        · exact h1
      obtain ⟨a1, a2, a3, a4, a5, a6⟩ := copyBackSlow_spec (accepts := accepts) L h n hn d
      rw [hr, e]
      exact ⟨a1, a5, a6⟩
  | readHint n rec =>
    intro r
    by_cases hc : n ≤ R.limit l.src - l.cur
    · have e : r = l := if_pos hc
      rw [e]
      refine ⟨h, fun _ => ?_, id⟩
      show ((ops R accepts).readHint n rec l).cur = l.cur
      rw [show (ops R accepts).readHint n rec l = l from e]
    · have e : r = l.readHintSlow R accepts n rec := if_neg hc
      obtain ⟨a1, a2, a3, a4⟩ := readHintSlow_spec (accepts := accepts) L h n rec
      rw [e]
      refine ⟨a1, fun _ => ?_, a4⟩
      show ((ops R accepts).readHint n rec l).cur = l.cur
      rw [show (ops R accepts).readHint n rec l = l.readHintSlow R accepts n rec from e]
      exact a2
  | size =>
    obtain ⟨a1, a2, a3, a4, a5, a6⟩ := sizeImpl_spec (accepts := accepts) L h
    exact ⟨a1, fun _ => ⟨a2, a4, a5⟩, a6⟩

omit L in
theorem init_wi (L : R.Lawful D E Inv) {s : σ} (h : Inv s) (digOk : Bool) : WI R D Inv (R.cursor s) (init R s digOk) := by
  have hw := L.window _ h
  refine ⟨h, Nat.le_refl _, ?_, Nat.le_refl _, ⟨0, Nat.zero_le _, (slice_zero _ _).symm, fun _ => ?_⟩, fun hd => ?_, fun ho => ?_⟩
  · exact hw.2.1
  · exact (Nat.sub_self _).symm
  · show (R.ok s && digOk) = false
    rw [show digOk = false from hd, Bool.and_false]
  · exact (Bool.and_eq_true _ _ ▸ (show (R.ok s && digOk) = true from ho)).1

/-- The reader is failed only because of the digester or the source. -/
def Cause (R : ReaderOps σ) (l : DR σ) : Prop := l.ok = false → l.digOk = false ∨ R.ok l.src = false

theorem pullSlow_cause (h : WI R D Inv p₀ l) (hc : Cause R l) (n rec : Nat) : Cause R (l.pullSlow R accepts n rec).2 := by
  intro hr
  unfold pullSlow at hr ⊢
  split
  · rename_i ho
    exact hc ho
  · rename_i ho
    rw [if_neg ho] at hr
    obtain ⟨a1, a2, a3, a4, a5, a6, a7, a8⟩ := sync_spec (accepts := accepts) L h
    dsimp only at hr ⊢
    split
    · rename_i hs
      exact .inl (a7 hs).2.1
    · rename_i hs
      rw [if_neg hs] at hr
      have hr : ((l.sync R accepts).2.ok && R.ok (R.pull n rec (l.sync R accepts).2.src).2) = false := hr
      have ho' : l.ok = true := by simpa using ho
      rw [(a6 (by simpa using hs)).2.1, ho', Bool.true_and] at hr
      exact .inr hr

theorem pull_cause (h : WI R D Inv p₀ l) (hc : Cause R l) (n rec : Nat) : Cause R ((ops R accepts).pull n rec l).2 := by
  unfold ReaderOps.pull
  split
  · exact hc
  · exact pullSlow_cause (accepts := accepts) L h hc n rec

theorem drain_spec (fuel : Nat) (h : WI R D Inv p₀ l) (hc : Cause R l) (hf : D.length < R.limit l.src + fuel) :
    let q := l.drain R accepts fuel
    WI R D Inv p₀ q ∧ Cause R q ∧ l.cur ≤ q.cur ∧ (q.ok = true → E ∧ q.cur = D.length) := by
  induction fuel generalizing l with
  | zero =>
    have hw := L.window _ h.inv
    omega
  | succ fuel ih =>
    intro q
    have Lo := (core_lawful (accepts := accepts) (p₀ := p₀) L).toOps
    have hw := L.window _ h.inv
    have hlo := h.lo
    have hhi := h.hi
    have h1 : WI R D Inv p₀ { l with cur := R.limit l.src } := ⟨h.inv, by show R.cursor l.src ≤ R.limit l.src; omega, Nat.le_refl _, h.from', h.dig, h.bad, h.srcOk⟩
    obtain ⟨b1, b2, b3, b4, b5⟩ := Lo.pull 1 0 h1
    have b6 := pull_cause (accepts := accepts) L h1 hc 1 0
    have hq : q = if ((ops R accepts).pull 1 0 { l with cur := R.limit l.src }).1 then
      drain R accepts fuel ((ops R accepts).pull 1 0 { l with cur := R.limit l.src }).2 else
      ((ops R accepts).pull 1 0 { l with cur := R.limit l.src }).2 := rfl
    have hop : (core R accepts).toOps.pull 1 0 { l with cur := R.limit l.src } = (ops R accepts).pull 1 0 { l with cur := R.limit l.src } := rfl
    rw [hop] at b1 b2 b3 b4 b5
    generalize (ops R accepts).pull 1 0 { l with cur := R.limit l.src } = r at *
    have b2 : r.2.cur = R.limit l.src := b2
    cases hb : r.1 with
    | true =>
      rw [if_pos hb] at hq
      have hav : 1 ≤ R.limit r.2.src - r.2.cur := (b3 hb).1
      obtain ⟨i1, i2, i3, i4⟩ := ih b1 b6 (by omega)
      rw [hq]
      exact ⟨i1, i2, by omega, i4⟩
    | false =>
      rw [if_neg (by rw [hb]; simp)] at hq
      rw [hq]
      refine ⟨b1, b6, by omega, fun ho => ?_⟩
      obtain ⟨c1, c2⟩ := b4 hb
      have c1 : R.limit r.2.src - r.2.cur < 1 := c1
      have hhi' := b1.hi
      rcases c2 with c2 | ⟨c2, c3⟩
      · exact (Bool.false_ne_true ((show r.2.ok = false from c2).symm.trans ho)).elim
      · have c3 : R.limit r.2.src = D.length := c3
        exact ⟨c2, by omega⟩

theorem verifyEnd_spec (h : WI R D Inv p₀ l) :
    let q := l.verifyEnd R accepts
    WI R D Inv p₀ q ∧ q.cur = l.cur ∧ (q.ok = true → E ∧ q.cur = D.length) ∧ (l.ok = false → q.ok = false) ∧
    (Cause R l → l.cur = D.length → Cause R q) := by
  intro q
  have Lo := (core_lawful (accepts := accepts) (p₀ := p₀) L).toOps
  obtain ⟨b1, b2, b3, b4, b5⟩ := Lo.pull 1 0 h
  have b6 := fun hc => pull_cause (accepts := accepts) L h hc 1 0
  have hop : (core R accepts).toOps.pull 1 0 l = (ops R accepts).pull 1 0 l := rfl
  rw [hop] at b1 b2 b3 b4 b5
  have hq : q = if ((ops R accepts).pull 1 0 l).1 then ((ops R accepts).pull 1 0 l).2.fail R accepts else ((ops R accepts).pull 1 0 l).2 := rfl
  generalize (ops R accepts).pull 1 0 l = r at *
  have b2 : r.2.cur = l.cur := b2
  have hhi := b1.hi
  have hw := L.window _ b1.inv
  cases hb : r.1 with
  | true =>
    rw [if_pos hb] at hq
    obtain ⟨f1, f2, f3, f4⟩ := fail_spec (accepts := accepts) L b1
    have hav : 1 ≤ R.limit r.2.src - r.2.cur := (b3 hb).1
    rw [hq]
    exact ⟨f1, f2.trans b2, fun ho => (Bool.false_ne_true (f3.symm.trans ho)).elim, fun _ => f3, fun _ he => by omega⟩
  | false =>
    rw [if_neg (by rw [hb]; simp)] at hq
    rw [hq]
    refine ⟨b1, b2, fun ho => ?_, b5, fun hc _ => b6 hc⟩
    obtain ⟨c1, c2⟩ := b4 hb
    have c1 : R.limit r.2.src - r.2.cur < 1 := c1
    rcases c2 with c2 | ⟨c2, c3⟩
    · exact (Bool.false_ne_true ((show r.2.ok = false from c2).symm.trans ho)).elim
    · have c3 : R.limit r.2.src = D.length := c3
      exact ⟨c2, by omega⟩

theorem close_spec (h : WI R D Inv p₀ l) :
    let q := l.close R accepts
    WI R D Inv p₀ q ∧ q.cur = l.cur ∧ (q.ok = true → l.ok = true ∧ q.digested = slice D p₀ (l.cur - p₀) ∧ R.cursor q.src = l.cur) ∧
    (Cause R l → Cause R q) := by
  intro q
  have hq : q = if l.ok then (l.sync R accepts).2 else l := rfl
  obtain ⟨a1, a2, a3, a4, a5, a6, a7, a8⟩ := sync_spec (accepts := accepts) L h
  cases ho : l.ok with
  | false =>
    rw [ho, if_neg (by simp)] at hq
    rw [hq]
    exact ⟨h, rfl, fun h' => (Bool.false_ne_true (ho.symm.trans h')).elim, id⟩
  | true =>
    rw [ho, if_pos rfl] at hq
    rw [hq]
    cases hs : (l.sync R accepts).1 with
    | true =>
      obtain ⟨b1, b2, b3⟩ := a6 hs
      refine ⟨a1, a2, fun h' => ⟨rfl, ?_, b1⟩, fun _ hf => ?_⟩
      · obtain ⟨k, k1, k2, k3⟩ := a1.dig
        have hd : (l.sync R accepts).2.digOk = true := by
          cases hd : (l.sync R accepts).2.digOk with
          | true => rfl
          | false => exact (Bool.false_ne_true ((a1.bad hd).symm.trans h')).elim
        rw [k2, k3 hd, b1]
      · exact (Bool.false_ne_true (hf.symm.trans (b2.trans ho))).elim
    | false =>
      obtain ⟨b1, b2, b3⟩ := a7 hs
      exact ⟨a1, a2, fun h' => (Bool.false_ne_true (b1.symm.trans h')).elim, fun _ _ => .inl b2⟩

end
end Riegeli.Rdr.DR
