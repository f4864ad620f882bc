import Verif.CsvGrammar
/-!
# What the writer writes is in the grammar
-/
namespace Riegeli
namespace Csv
open Lines

/-- Quotes doubled. -/
def dbl (q : UInt8) : Bytes → Bytes
  | [] => []
  | b :: r => if b = q then q :: q :: dbl q r else b :: dbl q r

theorem dbl_append {q : UInt8} {p r : Bytes} (h : q ∉ p) : dbl q (p ++ r) = p ++ dbl q r := by
  induction p with
  | nil => rfl
  | cons b p ih =>
    simp only [List.mem_cons, not_or] at h
    rw [List.cons_append, dbl, if_neg (fun e => h.1 e.symm), ih h.2]; rfl

theorem dbl_none {q : UInt8} {p : Bytes} (h : q ∉ p) : dbl q p = p := by
  have := dbl_append (r := []) h
  simpa [dbl] using this

theorem quotedLoop_eq (q : UInt8) (field : Bytes) : ∀ (k start next : Nat), field.length - next = k → start ≤ next →
    quotedLoop q field start next = (field.drop start).take (next - start) ++ dbl q (field.drop next) := by
  intro k
  induction k using Nat.strongRecOn with
  | _ k ih =>
    intro start next hk hsn
    have hdd : ∀ _t : Nat, field.drop start = (field.drop start).take (next - start) ++ field.drop next := by
      intro _
      conv => lhs; rw [← List.take_append_drop (next - start) (field.drop start)]
      rw [List.drop_drop]
      congr 2; omega
    rw [quotedLoop.eq_def]
    split
    · rename_i j hj
      obtain ⟨p, r, e, hp, hl⟩ := memchr_some hj
      have hlen := congrArg List.length e
      simp only [List.length_drop, List.length_append, List.length_cons] at hlen
      rw [ih (field.length - (next + j + 1)) (by omega) (next + j) (next + j + 1) rfl (by omega), e, dbl_append hp, dbl, if_pos rfl]
      have h1 : field.drop (next + j) = q :: r := by
        rw [← List.drop_drop, e, ← hl, List.drop_left]
      have h2 : field.drop (next + j + 1) = r := by
        rw [← List.drop_drop, h1]; rfl
      have h3 : (field.drop start).take (next + j + 1 - start) = (field.drop start).take (next - start) ++ (p ++ [q]) := by
        conv => lhs; rw [hdd 0, e]
        rw [List.take_append]
        have hlt : ((field.drop start).take (next - start)).length = next - start := by
          rw [List.length_take, List.length_drop]; omega
        rw [hlt, List.take_take, Nat.min_eq_right (by omega),
          show next + j + 1 - start - (next - start) = p.length + 1 by omega]
        congr 1
        rw [List.take_append, List.take_of_length_le (by omega), show p.length + 1 - p.length = 1 by omega]; rfl
      rw [h3, h1, h2, show next + j + 1 - (next + j) = 1 by omega]
      simp
    · rename_i hn
      rw [dbl_none (memchr_none hn)]
      exact hdd 0

/-- `WriteQuoted` doubles the quotes, if what was already scanned has none. -/
theorem writeQuoted_eq {q : UInt8} {field : Bytes} {a : Nat} (h : q ∉ field.take a) :
    writeQuoted q field a = q :: (dbl q field ++ [q]) := by
  unfold writeQuoted
  rw [quotedLoop_eq q field _ 0 a rfl (by omega)]
  conv => rhs; rw [← List.take_append_drop a field, dbl_append h]
  simp

theorem inside_dbl {o : ROpts} {q : UInt8} (hes : o.escape = none) : ∀ f, InsideEnc o q f (dbl q f)
  | [] => .nil
  | b :: f => by
    unfold dbl
    by_cases h : b = q
    · rw [if_pos h, h]; exact .twice (inside_dbl hes f)
    · rw [if_neg h]; exact .char h (by rw [hes]; simp) (inside_dbl hes f)

/-- The reader with the options of the writer. -/
structure Match (w : WOpts) (o : ROpts) : Prop where
  comment : o.comment = w.comment
  sep : o.sep = w.sep
  quote : o.quote = w.quote
  escape : o.escape = none

/-- Matching options are valid for the reader if they are for the writer. -/
theorem Match.valid {w : WOpts} {o : ROpts} (m : Match w o) (h : w.valid = true) : o.valid = true := by
  unfold WOpts.valid at h
  unfold ROpts.valid
  rw [m.comment, m.sep, m.quote, m.escape]
  simpa using h

theorem needed_iff {w : WOpts} {o : ROpts} (m : Match w o) (b : UInt8) :
    quotesNeeded w b = true ↔ Special o b ∨ o.comment = some b := by
  unfold quotesNeeded Special
  rw [m.comment, m.sep, m.quote, m.escape]
  simp only [Bool.or_eq_true, beq_iff_eq]
  constructor
  · rintro ((((h | h) | h) | h) | h)
    · exact .inl (.inl h)
    · exact .inl (.inr (.inl h))
    · exact .inr h
    · exact .inl (.inr (.inr (.inl h)))
    · exact .inl (.inr (.inr (.inr (.inl h))))
  · rintro ((h | h | h | h | h) | h)
    · simp [h]
    · simp [h]
    · simp [h]
    · simp [h]
    · cases h
    · simp [h]

/-- How a field was written. -/
def Wrote (w : WOpts) (f a : Bytes) : Prop :=
  (a = f ∧ ∀ b ∈ f, quotesNeeded w b = false) ∨ ∃ q, w.quote = some q ∧ a = q :: (dbl q f ++ [q])

theorem writeField_wrote {w : WOpts} {f a : Bytes} (h : writeField w f = some a) : Wrote w f a := by
  unfold writeField at h
  cases hi : f.findIdx? (quotesNeeded w) with
  | none =>
    rw [hi] at h
    simp only [Option.some.injEq] at h
    rw [List.findIdx?_eq_none_iff] at hi
    exact .inl ⟨h.symm, hi⟩
  | some i =>
    rw [hi] at h
    cases hq : w.quote with
    | none => rw [hq] at h; cases h
    | some q =>
      rw [hq] at h
      simp only [Option.some.injEq] at h
      rw [List.findIdx?_eq_some_iff_getElem] at hi
      obtain ⟨hlt, _, h2⟩ := hi
      right
      refine ⟨q, hq, ?_⟩
      rw [← h, writeQuoted_eq]
      intro hm
      obtain ⟨j, hj, e⟩ := List.getElem_of_mem hm
      rw [List.length_take] at hj
      rw [List.getElem_take] at e
      have := h2 j (by omega)
      rw [e] at this
      simp [quotesNeeded, hq] at this

theorem writeFirstField_wrote {w : WOpts} {f a : Bytes} (h : writeFirstField w f = some a) :
    Wrote w f a ∧ (looksLikeBom w f = true → ∀ q, w.quote = some q → a.head? = some q) := by
  unfold writeFirstField at h
  cases hq : w.quote with
  | none =>
    rw [hq] at h
    exact ⟨writeField_wrote h, fun _ q h => by cases h⟩
  | some q =>
    rw [hq] at h
    simp only at h
    split at h
    · simp only [Option.some.injEq] at h
      rw [writeQuoted_eq (by simp)] at h
      exact ⟨.inr ⟨q, hq, h.symm⟩, fun _ q' h' => by cases h'; rw [← h]; rfl⟩
    · rename_i hb
      exact ⟨writeField_wrote h, fun h' => absurd h' hb⟩

theorem wrote_enc {w : WOpts} {o : ROpts} (m : Match w o) {f a : Bytes} (h : Wrote w f a) :
    FieldEnc o f a ∧ (w.valid = true → ∀ c, o.comment = some c → a.head? ≠ some c) := by
  rcases h with ⟨rfl, h⟩ | ⟨q, hq, rfl⟩
  · constructor
    · apply FieldEnc.plain
      induction a with
      | nil => exact .nil
      | cons b t ih =>
        refine .char (fun hs => ?_) (ih fun x hx => h x (by simp [hx]))
        have := (needed_iff m b).2 (.inl hs)
        rw [h b (by simp)] at this; cases this
    · intro _ c hc he
      cases a with
      | nil => cases he
      | cons b t =>
        simp only [List.head?_cons, Option.some.injEq] at he
        subst he
        have := (needed_iff m b).2 (.inr hc)
        rw [h b (by simp)] at this; cases this
  · constructor
    · exact .quoted (by rw [m.quote, hq]) (inside_dbl m.escape f)
    · intro hv c hc he
      simp only [List.head?_cons, Option.some.injEq] at he
      subst he
      exact ((valid_cases (m.valid hv)).2.2.2.1 q (by rw [m.quote, hq])).2.2.1 hc

theorem writeMore_enc {w : WOpts} {o : ROpts} (m : Match w o) : ∀ {fs : List Bytes} {a : Bytes},
    writeMoreFields w fs = some a → MoreEnc o fs a
  | [], a, h => by cases h; exact .nil
  | f :: fs, a, h => by
    unfold writeMoreFields at h
    cases h1 : writeField w f with
    | none => rw [h1] at h; cases h
    | some x =>
      cases h2 : writeMoreFields w fs with
      | none => rw [h1, h2] at h; cases h
      | some y =>
        rw [h1, h2] at h
        simp only [Option.some.injEq] at h
        rw [← h, ← m.sep]
        exact .cons (wrote_enc m (writeField_wrote h1)).1 (writeMore_enc m h2)

/-- The fields of a record as written are in the grammar, do not look like a comment, and are empty only in the case of a single empty
field without quotes. -/
theorem writeFields_enc {w : WOpts} {o : ROpts} (m : Match w o) (hv : w.valid = true) {record : List Bytes} {a : Bytes}
    (hne : record ≠ []) (h : writeFields w record = some a) :
    RecordEnc o record a ∧ (∀ c, o.comment = some c → a.head? ≠ some c) ∧ (a = [] → w.quote = none ∧ record = [[]]) := by
  have hvo := valid_cases (m.valid hv)
  match record, h with
  | [f], h =>
    unfold writeFields at h
    simp only at h
    cases h1 : writeFirstField w f with
    | none => rw [h1] at h; cases h
    | some x =>
      rw [h1] at h
      simp only [Option.some.injEq] at h
      obtain ⟨g1, g2⟩ := writeFirstField_wrote h1
      by_cases hf : (f.isEmpty && w.sep != 0xef) = true
      · rw [if_pos hf] at h
        simp only [Bool.and_eq_true, List.isEmpty_iff, bne_iff_ne] at hf
        obtain ⟨rfl, hsep⟩ := hf
        have hx : x = [] := by
          have hl : looksLikeBom w [] = false := by simp [looksLikeBom, hsep]
          unfold writeFirstField at h1
          rw [hl] at h1
          cases hq : w.quote <;> rw [hq] at h1 <;> simp [writeField] at h1 <;> exact h1
        subst hx
        rw [List.nil_append] at h
        subst h
        unfold writeQuotes
        cases hq : w.quote with
        | none =>
          simp only
          refine ⟨?_, (by intro c _ h; cases h), fun _ => ⟨trivial, trivial⟩⟩
          have := RecordEnc.mk (o := o) (f := []) (e := []) (.plain .nil) .nil
          simpa using this
        | some q =>
          refine ⟨?_, ?_, by simp⟩
          · have := RecordEnc.mk (o := o) (f := []) (e := q :: ([] ++ [q])) (.quoted (by rw [m.quote, hq]) .nil) .nil
            simpa using this
          · intro c hc he
            simp only [List.head?_cons, Option.some.injEq] at he
            subst he
            exact (hvo.2.2.2.1 q (by rw [m.quote, hq])).2.2.1 hc
      · rw [if_neg hf] at h
        subst h
        obtain ⟨k1, k2⟩ := wrote_enc m g1
        refine ⟨?_, k2 hv, ?_⟩
        · have := RecordEnc.mk (o := o) k1 .nil
          simpa using this
        · intro hx
          subst hx
          rcases g1 with ⟨e, _⟩ | ⟨q, _, e⟩
          · subst e
            simp only [List.isEmpty_nil, Bool.true_and, bne_iff_ne, ne_eq, Classical.not_not] at hf
            cases hq : w.quote with
            | none => exact ⟨rfl, rfl⟩
            | some q =>
              have := g2 (by simp [looksLikeBom, hf]) q hq
              cases this
          · cases e
  | f :: g :: fs, h =>
    unfold writeFields at h
    simp only at h
    cases h1 : writeFirstField w f with
    | none => rw [h1] at h; cases h
    | some x =>
      cases h2 : writeMoreFields w (g :: fs) with
      | none => rw [h1, h2] at h; cases h
      | some y =>
        rw [h1, h2] at h
        simp only [Option.some.injEq] at h
        subst h
        obtain ⟨k1, k2⟩ := wrote_enc m (writeFirstField_wrote h1).1
        have hm := writeMore_enc m h2
        refine ⟨.mk k1 hm, ?_, ?_⟩
        · intro c hc he
          cases x with
          | nil =>
            cases hm with
            | cons _ _ =>
              simp only [List.nil_append, List.head?_cons, Option.some.injEq] at he
              exact (hvo.1 c hc).2.2 he.symm
          | cons b t => exact k2 hv c hc (by simpa using he)
        · intro he
          simp only [List.append_eq_nil_iff] at he
          rw [he.2] at hm
          cases hm

/-- What was written begins with the BOM only because of a field. -/
theorem writeFields_bom {w : WOpts} {record : List Bytes} {a t : Bytes} {q : UInt8} (hv : w.valid = true) (hq : w.quote = some q) (hqe : q ≠ 0xef)
    (h : writeFields w record = some a) (nl : WNewline) : ¬∃ r, a ++ (nl.bytes ++ t) = utf8Bom ++ r := by
  rintro ⟨r, hr⟩
  have hnl : ∃ z, nl.bytes ++ t = LF :: z ∨ nl.bytes ++ t = CR :: z := by
    cases nl
    · exact ⟨t, .inl rfl⟩
    · exact ⟨LF :: t, .inr rfl⟩
  have hhead : (a ++ (nl.bytes ++ t)).head? = some 0xef := by rw [hr]; rfl
  have hsep : w.sep ≠ LF ∧ w.sep ≠ CR := by
    simp only [WOpts.valid, Bool.and_eq_true, Bool.not_eq_true', isNewlineChar, Bool.or_eq_false_iff, decide_eq_false_iff_not] at hv
    exact hv.1.1.2
  -- the first field and what follows it
  have key : ∀ {f x z : Bytes}, Wrote w f x → (looksLikeBom w f = true → ∀ q, w.quote = some q → x.head? = some q) →
      (∃ c z', z = c :: z' ∧ (c = w.sep ∨ c = LF ∨ c = CR)) → (x = [] → z.head? ≠ some 0xef) → x ++ z ≠ utf8Bom ++ r := by
    rintro f x z hw hl ⟨c, z', rfl, hc⟩ hx he
    rcases hw with ⟨rfl, _⟩ | ⟨q', hq', rfl⟩
    · have hno : looksLikeBom w x = true → False := by
        intro h
        have h1 := hl h q hq
        cases x with
        | nil => cases h1
        | cons b t =>
          simp only [List.head?_cons, Option.some.injEq] at h1
          simp only [utf8Bom, List.cons_append, List.cons.injEq] at he
          exact hqe (by rw [← h1]; exact he.1)
      match x, he with
      | [], he => exact hx rfl (by simp only [utf8Bom, List.cons_append, List.nil_append, List.cons.injEq] at he; rw [he.1]; rfl)
      | [a], he =>
        simp only [utf8Bom, List.cons_append, List.nil_append, List.cons.injEq] at he
        rcases hc with h | h | h
        · exact hno (by simp [looksLikeBom, he.1, ← h, he.2.1])
        · rw [h] at he; exact absurd he.2.1 (by decide)
        · rw [h] at he; exact absurd he.2.1 (by decide)
      | [a, b], he =>
        simp only [utf8Bom, List.cons_append, List.nil_append, List.cons.injEq] at he
        rcases hc with h | h | h
        · exact hno (by simp [looksLikeBom, he.1, he.2.1, ← h, he.2.2.1])
        · rw [h] at he; exact absurd he.2.2.1 (by decide)
        · rw [h] at he; exact absurd he.2.2.1 (by decide)
      | a :: b :: c' :: t, he =>
        simp only [utf8Bom, List.cons_append, List.nil_append, List.cons.injEq] at he
        exact hno (by simp [looksLikeBom, he.1, he.2.1, he.2.2.1])
    · rw [hq] at hq'
      cases hq'
      simp only [utf8Bom, List.cons_append, List.cons.injEq] at he
      exact hqe he.1
  have hnl' : ∃ c z', nl.bytes ++ t = c :: z' ∧ (c = w.sep ∨ c = LF ∨ c = CR) := by
    obtain ⟨z, h | h⟩ := hnl
    · exact ⟨LF, z, h, .inr (.inl rfl)⟩
    · exact ⟨CR, z, h, .inr (.inr rfl)⟩
  have hnle : (nl.bytes ++ t).head? ≠ some 0xef := by
    obtain ⟨z, h | h⟩ := hnl
    · rw [h]; show some LF ≠ some 0xef; decide
    · rw [h]; show some CR ≠ some 0xef; decide
  match record, h with
  | [], h =>
    cases h
    rw [List.nil_append] at hhead
    exact hnle hhead
  | [f], h =>
    unfold writeFields at h
    simp only at h
    cases h1 : writeFirstField w f with
    | none => rw [h1] at h; cases h
    | some x =>
      rw [h1] at h
      simp only [Option.some.injEq] at h
      obtain ⟨g1, g2⟩ := writeFirstField_wrote h1
      by_cases hf : (f.isEmpty && w.sep != 0xef) = true
      · rw [if_pos hf] at h
        simp only [Bool.and_eq_true, List.isEmpty_iff, bne_iff_ne] at hf
        obtain ⟨rfl, hs⟩ := hf
        have hx : x = [] := by
          have hl : looksLikeBom w [] = false := by simp [looksLikeBom, hs]
          unfold writeFirstField at h1
          rw [hl] at h1
          rw [hq] at h1; simp [writeField] at h1; exact h1
        subst hx
        rw [← h] at hhead
        simp only [writeQuotes, hq, List.nil_append, List.cons_append, List.head?_cons, Option.some.injEq] at hhead
        exact hqe hhead
      · rw [if_neg hf] at h
        subst h
        exact key g1 g2 hnl' (fun _ => hnle) hr
  | f :: g :: fs, h =>
    unfold writeFields at h
    simp only at h
    cases h1 : writeFirstField w f with
    | none => rw [h1] at h; cases h
    | some x =>
      cases h2 : writeMoreFields w (g :: fs) with
      | none => rw [h1, h2] at h; cases h
      | some y =>
        rw [h1, h2] at h
        simp only [Option.some.injEq] at h
        subst h
        obtain ⟨g1, g2⟩ := writeFirstField_wrote h1
        have hy : ∃ y', y = w.sep :: y' := by
          unfold writeMoreFields at h2
          cases h3 : writeField w g with
          | none => rw [h3] at h2; cases h2
          | some u =>
            cases h4 : writeMoreFields w fs with
            | none => rw [h3, h4] at h2; cases h2
            | some v => rw [h3, h4] at h2; simp only [Option.some.injEq] at h2; exact ⟨_, h2.symm⟩
        obtain ⟨y', rfl⟩ := hy
        rw [List.append_assoc] at hr
        refine key g1 g2 ⟨w.sep, _, by rw [List.cons_append], .inl rfl⟩ ?_ hr
        intro hx he
        rw [List.cons_append, List.head?_cons, Option.some.injEq] at he
        subst hx
        rcases g1 with ⟨rfl, _⟩ | ⟨_, _, h⟩
        · have := g2 (by simp [looksLikeBom, he]) q hq
          cases this
        · cases h

/-- With quotes, writing does not fail. -/
theorem writeField_some {w : WOpts} {q : UInt8} (hq : w.quote = some q) (f : Bytes) : ∃ a, writeField w f = some a := by
  unfold writeField
  cases f.findIdx? (quotesNeeded w) with
  | none => exact ⟨_, rfl⟩
  | some i => rw [hq]; exact ⟨_, rfl⟩

end Csv
end Riegeli
