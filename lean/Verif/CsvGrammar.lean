import Verif.CsvParse
import Verif.CsvSpec
/-!
# The parser accepts exactly the grammar
-/
namespace Riegeli
namespace Csv
open Lines

variable {o : ROpts} {fails : Bool}

/-- What validity of the options means. -/
theorem valid_cases (hv : o.valid = true) :
    (∀ c, o.comment = some c → c ≠ LF ∧ c ≠ CR ∧ c ≠ o.sep) ∧ o.sep ≠ LF ∧ o.sep ≠ CR ∧
    (∀ q, o.quote = some q → q ≠ LF ∧ q ≠ CR ∧ o.comment ≠ some q ∧ q ≠ o.sep) ∧
    (∀ e, o.escape = some e → e ≠ LF ∧ e ≠ CR ∧ o.comment ≠ some e ∧ e ≠ o.sep ∧ o.quote ≠ some e) := by
  obtain ⟨comment, sep, quote, escape, _, _, _, _, _⟩ := o
  simp only [ROpts.valid, Bool.and_eq_true, Bool.not_eq_true', isNewlineChar, Bool.or_eq_false_iff, decide_eq_false_iff_not,
    beq_eq_false_iff_ne] at hv
  obtain ⟨⟨⟨⟨h1, h2, h3⟩, h4⟩, h5⟩, h6⟩ := hv
  refine ⟨?_, h2, h3, ?_, ?_⟩
  · intro c hc
    simp only at hc
    subst hc
    simp only [Option.any_some, isNewlineChar, Bool.or_eq_false_iff, decide_eq_false_iff_not] at h1
    exact ⟨h1.1, h1.2, fun e => h4 (by rw [e])⟩
  · intro q hq
    simp only at hq
    subst hq
    simp only [Bool.and_eq_true, Bool.not_eq_true', Bool.or_eq_false_iff, decide_eq_false_iff_not, beq_eq_false_iff_ne] at h5
    exact ⟨h5.1.1.1, h5.1.1.2, fun e => h5.1.2 (by simpa using e.symm), h5.2⟩
  · intro q hq
    simp only at hq
    subst hq
    simp only [Bool.and_eq_true, Bool.not_eq_true', Bool.or_eq_false_iff, decide_eq_false_iff_not, beq_eq_false_iff_ne] at h6
    exact ⟨h6.1.1.1.1, h6.1.1.1.2, fun e => h6.1.1.2 (by simpa using e.symm), h6.1.2, fun e => h6.2 (by simpa using e.symm)⟩

/-- The class of a character, by the options. -/
theorem cls_iff (hv : o.valid = true) (b : UInt8) :
    (cls o b = .escape ↔ o.escape = some b) ∧ (cls o b = .quote ↔ o.quote = some b) ∧ (cls o b = .sep ↔ b = o.sep) ∧
    (cls o b = .comment ↔ o.comment = some b) ∧ (cls o b = .cr ↔ b = CR) ∧ (cls o b = .lf ↔ b = LF) ∧
    (cls o b = .other ↔ ¬Special o b ∧ o.comment ≠ some b) := by
  obtain ⟨h1, h2, h3, h4, h5⟩ := valid_cases hv
  unfold cls Special
  by_cases a : o.escape = some b
  · obtain ⟨c1, c2, c3, c4, c5⟩ := h5 b a
    simp [a, c1, c2, c3, c4, c5]
  · by_cases b1 : o.quote = some b
    · obtain ⟨c1, c2, c3, c4⟩ := h4 b b1
      simp [a, b1, c1, c2, c3, c4]
    · by_cases b2 : b = o.sep
      · subst b2
        have : o.comment ≠ some o.sep := fun h => (h1 _ h).2.2 rfl
        simp [a, b1, h2, h3, this]
      · by_cases b3 : o.comment = some b
        · obtain ⟨c1, c2, c3⟩ := h1 b b3
          simp [a, b1, b2, b3, c1, c2]
        · by_cases b4 : b = CR
          · subst b4; have : ¬CR = LF := by decide
            simp [a, b1, b2, b3, this]
          · by_cases b5 : b = LF
            · subst b5; simp [a, b1, b2, b3, b4]
            · simp [a, b1, b2, b3, b4, b5]

/-! ## Completeness -/

/-- The number of LF. -/
abbrev lfs (d : Bytes) : Nat := d.count LF

theorem pQuoted_complete (hv : o.valid = true) {q : UInt8} (hq : o.quote = some q) {f e : Bytes} (h : InsideEnc o q f e) :
    ∀ (acc tail : Bytes) (line : Nat), (acc ++ f).length ≤ o.maxLen → tail.head? ≠ some q → (tail = [] → fails = false) →
    ∃ l, pQuoted o fails acc (e ++ q :: tail) line = .ok (acc ++ f, tail, l) ∧ (o.escape = none → l = line + lfs e) := by
  have hqc : quoteChar o = q := by unfold quoteChar; rw [hq]; rfl
  induction h with
  | nil =>
    intro acc tail line hl ht hfl
    rw [pQuoted.eq_def, if_neg (by simp at hl ⊢; omega)]
    simp only [List.nil_append, List.append_nil]
    rw [if_pos ((cls_iff hv q).2.1.2 hq)]
    cases tail with
    | nil => rw [hfl rfl]; exact ⟨line, rfl, fun _ => by simp⟩
    | cons c r =>
      simp only
      rw [if_neg (by rw [hqc]; intro e; exact ht (by rw [e]; rfl))]
      exact ⟨line, rfl, fun _ => by simp⟩
  | @char b f e hb he t ih =>
    intro acc tail line hl ht hfl
    rw [pQuoted.eq_def, if_neg (by simp at hl ⊢; omega)]
    simp only [List.cons_append]
    have hnq : cls o b ≠ .quote := fun hc => by
      have := (cls_iff hv b).2.1.1 hc
      rw [hq] at this; exact hb (Option.some.inj this).symm
    have hne : cls o b ≠ .escape := fun hc => he ((cls_iff hv b).1.1 hc)
    rw [if_neg hnq, if_neg hne]
    obtain ⟨l, h1, h2⟩ := ih (acc ++ [b]) tail (if cls o b = .lf then line + 1 else line) (by simpa using hl) ht hfl
    refine ⟨l, by rw [h1]; simp, fun hes => ?_⟩
    rw [h2 hes]
    simp only [lfs, List.count_cons]
    by_cases hlf : b = LF
    · subst hlf
      rw [if_pos ((cls_iff hv LF).2.2.2.2.2.1.2 rfl)]
      simp; omega
    · rw [if_neg (fun hc => hlf ((cls_iff hv b).2.2.2.2.2.1.1 hc))]
      simp [hlf]
  | @twice f e t ih =>
    intro acc tail line hl ht hfl
    rw [pQuoted.eq_def, if_neg (by simp at hl ⊢; omega)]
    simp only [List.cons_append]
    rw [if_pos ((cls_iff hv q).2.1.2 hq), if_pos hqc.symm]
    obtain ⟨l, h1, h2⟩ := ih (acc ++ [q]) tail line (by simpa using hl) ht hfl
    refine ⟨l, by rw [h1]; simp, fun hes => ?_⟩
    obtain ⟨_, _, _, h4, _⟩ := valid_cases hv
    have := (h4 q hq).1
    rw [h2 hes, lfs, lfs, List.count_cons_of_ne this, List.count_cons_of_ne this]
  | @escaped c b f e hc t ih =>
    intro acc tail line hl ht hfl
    rw [pQuoted.eq_def, if_neg (by simp at hl ⊢; omega)]
    simp only [List.cons_append]
    have hce : cls o c = .escape := (cls_iff hv c).1.2 hc
    rw [if_neg (by rw [hce]; simp), if_pos hce]
    obtain ⟨l, h1, h2⟩ := ih (acc ++ [b]) tail line (by simpa using hl) ht hfl
    exact ⟨l, by rw [h1]; simp, fun hes => by rw [hc] at hes; cases hes⟩

theorem pRun_plain (hv : o.valid = true) {f e : Bytes} (h : PlainEnc o f e) :
    ∀ (fields : List Bytes) (acc tail : Bytes) (line last : Nat), (acc ++ f).length ≤ o.maxLen →
    (fields = [] → acc = [] → ∀ c, o.comment = some c → e.head? ≠ some c) →
    pRun o fails fields acc (e ++ tail) line last = pRun o fails fields (acc ++ f) tail line last := by
  induction h with
  | nil => intro fields acc tail line last hl hc; simp
  | @char b f e hb t ih =>
    intro fields acc tail line last hl hc
    rw [pRun_eq, List.cons_append, pStep_eq (by simp at hl ⊢; omega)]
    have hc' : cls o b = .other ∨ cls o b = .comment := by
      by_cases hcm : o.comment = some b
      · exact .inr ((cls_iff hv b).2.2.2.1.2 hcm)
      · exact .inl ((cls_iff hv b).2.2.2.2.2.2.2 ⟨hb, hcm⟩)
    have hstep : pRun o fails fields (acc ++ [b]) (e ++ tail) line last = pRun o fails fields (acc ++ b :: f) tail line last := by
      rw [ih fields (acc ++ [b]) tail line last (by simpa using hl) (by simp)]
      simp
    rcases hc' with h | h
    · rw [h]; exact hstep
    · rw [h]
      simp only
      rw [if_neg]
      · exact hstep
      · intro hcond
        simp only [Bool.and_eq_true, List.isEmpty_iff] at hcond
        exact hc hcond.1 hcond.2 b ((cls_iff hv b).2.2.2.1.1 h) rfl
  | @escaped c b f e hb t ih =>
    intro fields acc tail line last hl hc
    rw [pRun_eq, List.cons_append, List.cons_append, pStep_eq (by simp at hl ⊢; omega), (cls_iff hv c).1.2 hb]
    simp only [PStep.go]
    rw [ih fields (acc ++ [b]) tail line last (by simpa using hl) (by simp)]
    simp

/-- The rest of data after a field: another field, or the end of the record. -/
def afterField (o : ROpts) (fails : Bool) (fields : List Bytes) (tail : Bytes) (line last : Nat) : PStep :=
  match tail with
  | [] => .done (if fails then failOut .source else (.record fields, [], line + 1, last))
  | b :: r =>
    if b = o.sep then pNextField o fields r line last
    else if b = LF then pEndLineQuoted o fields.dropLast (fields.getLast?.getD []) r line last
    else if b = CR then pAfterCr fails r fun r => pEndLineQuoted o fields.dropLast (fields.getLast?.getD []) r line last
    else .done (failOut .options)

/-- What can follow a field. -/
def Follows (o : ROpts) (tail : Bytes) : Prop := tail = [] ∨ ∃ b r, tail = b :: r ∧ (b = o.sep ∨ b = LF ∨ b = CR)

theorem pRun_field (hv : o.valid = true) {f e : Bytes} (h : FieldEnc o f e) (fields : List Bytes) (tail : Bytes)
    (line last : Nat) (hl : f.length ≤ o.maxLen) (ht : Follows o tail) (hfl : tail = [] → fails = false)
    (hc : fields = [] → ∀ c, o.comment = some c → e.head? ≠ some c)
    (hne : fields = [] → e = [] → ∀ b r, tail = b :: r → b ≠ o.sep → o.skipEmptyLines = false) :
    ∃ l, pRun o fails fields [] (e ++ tail) line last = (afterField o fails (fields ++ [f]) tail l last).go o fails ∧
      (o.escape = none → l = line + lfs e) := by
  obtain ⟨v1, v2, v3, v4, v5⟩ := valid_cases hv
  cases h with
  | plain h =>
    refine ⟨line, ?_, ?_⟩
    · rw [pRun_plain hv h fields [] tail line last (by simpa using hl) (fun a _ => hc a), pRun_eq, List.nil_append]
      have hskip : ∀ b r, tail = b :: r → b ≠ o.sep → (o.skipEmptyLines && fields.isEmpty && f.isEmpty) = false := by
        intro b r hb hbs
        cases h1 : o.skipEmptyLines with
        | false => rfl
        | true =>
          cases fields with
          | cons a t => rfl
          | nil =>
            cases f with
            | cons a t => rfl
            | nil =>
              have he : e = [] := by cases h; rfl
              rw [hne rfl he b r hb hbs] at h1; cases h1
      unfold afterField
      rcases ht with rfl | ⟨b, r, rfl, hb⟩
      · rw [pStep.eq_def, if_neg (by omega)]
      · rw [pStep_eq (by omega)]
        simp only
        by_cases h1 : b = o.sep
        · rw [(cls_iff hv b).2.2.1.2 h1, if_pos h1]
        · rw [if_neg h1]
          have hs := hskip b r rfl h1
          by_cases h2 : b = LF
          · rw [(cls_iff hv b).2.2.2.2.2.1.2 h2, if_pos h2]
            simp only [pEndLine, pEndLineQuoted, hs, Bool.false_eq_true, if_false]
            simp
          · have h3 : b = CR := by rcases hb with h | h | h <;> first | exact absurd h h1 | exact absurd h h2 | exact h
            rw [(cls_iff hv b).2.2.2.2.1.2 h3, if_neg h2, if_pos h3]
            simp only [pEndLine, pEndLineQuoted, hs, Bool.false_eq_true, if_false]
            simp
    · intro hes
      have : LF ∉ e := by
        clear hc hne hl
        induction h with
        | nil => simp
        | char hb t ih =>
          simp only [List.mem_cons, not_or]
          exact ⟨fun h => hb (.inl h.symm), ih⟩
        | escaped hb t ih => rw [hes] at hb; cases hb
      rw [lfs, List.count_eq_zero_of_not_mem this]; rfl
  | @quoted q f e' hq h =>
    have hcq : cls o q = .quote := (cls_iff hv q).2.1.2 hq
    have htq : tail.head? ≠ some q := by
      rcases ht with rfl | ⟨b, r, rfl, hb⟩
      · simp
      · simp only [List.head?_cons, ne_eq, Option.some.injEq]
        rintro rfl
        obtain ⟨w1, w2, _, w3⟩ := v4 b hq
        rcases hb with hb | hb | hb
        · exact w3 hb
        · exact w1 hb
        · exact w2 hb
    obtain ⟨l, h1, h2⟩ := pQuoted_complete (fails := fails) hv hq h [] tail line (by simpa using hl) htq hfl
    refine ⟨l, ?_, ?_⟩
    · rw [pRun_eq, List.cons_append, pStep_eq (by simp), hcq]
      simp only [List.isEmpty_nil, if_true]
      rw [show e' ++ [q] ++ tail = e' ++ q :: tail by simp, h1, List.nil_append]
      simp only
      unfold pAfterQuoted afterField
      rcases ht with rfl | ⟨b, r, rfl, hb⟩
      · rfl
      · simp only
        by_cases h1 : b = o.sep
        · rw [(cls_iff hv b).2.2.1.2 h1, if_pos h1]
        · rw [if_neg h1]
          by_cases h2 : b = LF
          · rw [(cls_iff hv b).2.2.2.2.2.1.2 h2, if_pos h2]; simp
          · have h3 : b = CR := by rcases hb with h | h | h <;> first | exact absurd h h1 | exact absurd h h2 | exact h
            rw [(cls_iff hv b).2.2.2.2.1.2 h3, if_neg h2, if_pos h3]; simp
    · intro hes
      have hqlf := (v4 q hq).1
      rw [h2 hes, lfs, lfs, List.count_cons_of_ne hqlf, List.count_append]
      simp [hqlf]

/-- The newline after a record, or the end of data. -/
def Ends (newline rest : Bytes) : Prop := newline = [LF] ∨ newline = [CR, LF] ∨ newline = [] ∧ rest = []

theorem ends_follows {newline rest : Bytes} (h : Ends newline rest) : Follows o (newline ++ rest) := by
  rcases h with rfl | rfl | ⟨rfl, rfl⟩
  · exact .inr ⟨LF, rest, rfl, .inr (.inl rfl)⟩
  · exact .inr ⟨CR, LF :: rest, rfl, .inr (.inr rfl)⟩
  · exact .inl rfl

theorem afterField_end (hv : o.valid = true) {newline rest : Bytes} (h : Ends newline rest) (hfl : newline = [] → fails = false)
    (hst : newline ≠ [] → o.standalone = false) {fields : List Bytes} (hne : fields ≠ []) (line last : Nat) :
    (afterField o fails fields (newline ++ rest) line last).go o fails = (.record fields, rest, line + 1, last) := by
  obtain ⟨v1, v2, v3, v4, v5⟩ := valid_cases hv
  have hlast : fields.dropLast ++ [fields.getLast?.getD []] = fields := by
    rw [List.getLast?_eq_some_getLast hne]; exact List.dropLast_concat_getLast hne
  rcases h with rfl | rfl | ⟨rfl, rfl⟩
  · show (if LF = o.sep then _ else _ : PStep).go o fails = _
    rw [if_neg v2.symm, if_pos rfl, pEndLineQuoted, hst (by simp), if_neg (by simp), hlast]; rfl
  · show (if CR = o.sep then _ else _ : PStep).go o fails = _
    rw [if_neg v3.symm, if_neg (by decide), if_pos rfl]
    show (pAfterCr fails (LF :: rest) _).go o fails = _
    rw [pAfterCr, if_neg (by simp), pEndLineQuoted, hst (by simp), if_neg (by simp), hlast]; rfl
  · show (PStep.done _).go o fails = _
    rw [hfl rfl]; rfl

theorem more_complete (hv : o.valid = true) {fs : List Bytes} {es : Bytes}
    (h : MoreEnc o fs es) : ∀ (fields : List Bytes) (newline rest : Bytes) (line last : Nat), Ends newline rest → (newline = [] → fails = false) →
    (newline ≠ [] → o.standalone = false) → fields ≠ [] →
    fields.length + fs.length ≤ o.maxFields → (∀ f ∈ fs, f.length ≤ o.maxLen) →
    ∃ l, (afterField o fails fields (es ++ (newline ++ rest)) line last).go o fails = (.record (fields ++ fs), rest, l + 1, last) ∧
      (o.escape = none → l = line + lfs es) := by
  induction h with
  | nil =>
    intro fields newline rest line last he hfl hst hne _ _
    exact ⟨line, by rw [List.nil_append, afterField_end hv he hfl hst hne, List.append_nil], fun _ => by simp⟩
  | @cons f e fs es h t ih =>
    intro fields newline rest line last he hfl hst hne hlen hl
    rw [List.cons_append, List.append_assoc]
    have hfl' : Follows o (es ++ (newline ++ rest)) := by
      cases t with
      | nil => rw [List.nil_append]; exact ends_follows he
      | cons _ _ => exact .inr ⟨o.sep, _, by rw [List.cons_append], .inl rfl⟩
    have e1 : (afterField o fails fields (o.sep :: (e ++ (es ++ (newline ++ rest)))) line last) =
        pNextField o fields (e ++ (es ++ (newline ++ rest))) line last := by
      unfold afterField; simp only [if_true]
    simp only [List.length_cons] at hlen
    rw [e1, pNextField, if_neg (by omega)]
    simp only [PStep.go]
    obtain ⟨l, h1, h2⟩ := pRun_field (fails := fails) hv h fields (es ++ (newline ++ rest)) line last (hl f (by simp)) hfl' (fun h => hfl (by simp only [List.append_eq_nil_iff] at h; exact h.2.1))
      (fun a => absurd a hne) (fun a => absurd a hne)
    obtain ⟨l', h3, h4⟩ := ih (fields ++ [f]) newline rest l last he hfl hst (by simp) (by simp; omega) (fun g hg => hl g (by simp [hg]))
    refine ⟨l', by rw [h1, h3]; simp, fun hes => ?_⟩
    rw [h4 hes, h2 hes]
    obtain ⟨_, v2, _⟩ := valid_cases hv
    rw [lfs, lfs, lfs, List.count_cons_of_ne v2, List.count_append]; omega

theorem pSkip_line {l r : Bytes} (h : LF ∉ l) : pSkip (l ++ LF :: r) = r := by
  induction l with
  | nil => simp [pSkip]
  | cons b l ih =>
    simp only [List.mem_cons, not_or] at h
    rw [List.cons_append, pSkip, if_neg (fun e => h.1 e.symm), ih h.2]

theorem pSkip_none {l : Bytes} (h : LF ∉ l) : pSkip l = [] := by
  induction l with
  | nil => rfl
  | cons b l ih =>
    simp only [List.mem_cons, not_or] at h
    rw [pSkip, if_neg (fun e => h.1 e.symm), ih h.2]

theorem pRecord_skip (hv : o.valid = true) (hmf : 1 ≤ o.maxFields) {sk : Bytes} (h : Skipped o sk) (tail : Bytes) : ∀ (line : Nat),
    pRecord o fails (sk ++ tail) line = pRecord o fails tail (line + lfs sk) := by
  have start : ∀ (b : UInt8) (r : Bytes) (line : Nat), pRecord o fails (b :: r) line =
      (pStep o fails [] [] (b :: r) line line).go o fails := by
    intro b r line
    unfold pRecord pNextRecord pNextField
    rw [if_neg (by simp), if_neg (by simp; omega)]
    simp only [PStep.go]
    rw [pRun_eq]; rfl
  induction h with
  | nil => intro line; simp
  | @comment c l r hc hl t ih =>
    intro line
    have hclf := ((valid_cases hv).1 c hc).1
    rw [List.cons_append, start, pStep_eq (by simp), (cls_iff hv c).2.2.2.1.2 hc]
    simp only [List.isEmpty_nil, Bool.and_self, if_true]
    rw [show l ++ LF :: r ++ tail = l ++ LF :: (r ++ tail) by simp, pSkip_line hl]
    show pRecord o fails (r ++ tail) (line + 1) = _
    rw [ih, lfs, lfs, List.count_cons_of_ne hclf, List.count_append, List.count_eq_zero_of_not_mem hl, List.count_cons_self]
    congr 1; omega
  | @lf r h t ih =>
    intro line
    rw [List.cons_append, start, pStep_eq (by simp), (cls_iff hv LF).2.2.2.2.2.1.2 rfl]
    simp only [pEndLine, h, List.isEmpty_nil, Bool.and_self, if_true]
    show pRecord o fails (r ++ tail) (line + 1) = _
    rw [ih, lfs, lfs, List.count_cons_self]; congr 1; omega
  | @crLf r h t ih =>
    intro line
    rw [List.cons_append, List.cons_append, start, pStep_eq (by simp), (cls_iff hv CR).2.2.2.2.1.2 rfl]
    simp only [pAfterCr, ne_eq, not_true, if_false, pEndLine, h, List.isEmpty_nil, Bool.and_self, if_true]
    show pRecord o fails (r ++ tail) (line + 1) = _
    rw [ih, lfs, lfs, List.count_cons_of_ne (by decide), List.count_cons_self]; congr 1; omega

/-- The limits of the options. -/
def Within (o : ROpts) (fields : List Bytes) : Prop := fields.length ≤ o.maxFields ∧ ∀ f ∈ fields, f.length ≤ o.maxLen

/-- A record of the grammar is read. -/
theorem pRecord_complete (hv : o.valid = true) (hst : o.standalone = false) {data : Bytes} {fields : List Bytes}
    {sk enc newline rest : Bytes} (h : RecordAt o data fields sk enc newline rest) (hfl : newline = [] → fails = false) (hw : Within o fields) (line : Nat) :
    ∃ l, pRecord o fails data line = (.record fields, rest, l, line + lfs sk) ∧
      (o.escape = none → l = line + lfs (sk ++ enc) + 1) := by
  obtain ⟨hcut, hsk, henc, hnc, hnem, hends⟩ := h
  obtain ⟨hw1, hw2⟩ := hw
  cases henc with
  | @mk f e fs es hfe hm =>
    rw [hcut, pRecord_skip hv (by simp at hw1; omega) hsk]
    have hne : e ++ es ++ (newline ++ rest) ≠ [] := by
      intro h
      simp only [List.append_eq_nil_iff] at h
      exact (hnem (by simp [h.1.1, h.1.2])).2 h.2.1
    simp only [List.length_cons] at hw1
    unfold pRecord pNextRecord pNextField
    rw [if_neg (fun h => hne h.2), if_neg (by simp; omega)]
    simp only [PStep.go]
    rw [List.append_assoc]
    have hfo : Follows o (es ++ (newline ++ rest)) := by
      cases hm with
      | nil => rw [List.nil_append]; exact ends_follows hends
      | cons _ _ => exact .inr ⟨o.sep, _, by rw [List.cons_append], .inl rfl⟩
    obtain ⟨l, h1, h2⟩ := pRun_field (fails := fails) hv hfe [] (es ++ (newline ++ rest)) (line + lfs sk) (line + lfs sk)
      (hw2 f (by simp)) hfo (fun h => hfl (by simp only [List.append_eq_nil_iff] at h; exact h.2.1)) (by
        intro _ c hc he
        cases e with
        | nil => cases he
        | cons a t => exact hnc c hc (by simpa using he)) (by
        intro _ he b r hbr hbs
        have : es = [] := by
          cases hm with
          | nil => rfl
          | cons _ _ => simp only [List.cons_append, List.cons.injEq] at hbr; exact absurd hbr.1.symm hbs
        exact (hnem (by rw [he, this]; rfl)).1)
    obtain ⟨l', h3, h4⟩ := more_complete (fails := fails) hv hm ([] ++ [f]) newline rest l (line + lfs sk) hends hfl (fun _ => hst) (by simp)
      (by simp; omega) (fun g hg => hw2 g (by simp [hg]))
    refine ⟨l' + 1, by rw [h1, h3]; simp, fun hes => ?_⟩
    rw [h4 hes, h2 hes]
    simp only [lfs, List.count_append]; omega

/-- A standalone record is read. -/
theorem pRecord_standalone (hv : o.valid = true) (hst : o.standalone = true) {fields : List Bytes} {enc : Bytes}
    (henc : RecordEnc o fields enc) (hnc : ∀ c, o.comment = some c → enc.head? ≠ some c) (hw : Within o fields) (line : Nat) :
    ∃ l, pRecord o false enc line = (.record fields, [], l, line) := by
  obtain ⟨hw1, hw2⟩ := hw
  cases henc with
  | @mk f e fs es hfe hm =>
    simp only [List.length_cons] at hw1
    unfold pRecord pNextRecord pNextField
    rw [if_neg (fun h => by rw [hst] at h; exact absurd h.1 (by simp)), if_neg (by simp; omega)]
    simp only [PStep.go]
    have hends : Ends [] [] := .inr (.inr ⟨rfl, rfl⟩)
    have hfo : Follows o (es ++ ([] ++ [])) := by
      cases hm with
      | nil => exact .inl rfl
      | cons _ _ => exact .inr ⟨o.sep, _, by rw [List.cons_append], .inl rfl⟩
    obtain ⟨l, h1, h2⟩ := pRun_field (fails := false) hv hfe [] (es ++ ([] ++ [])) line line
      (hw2 f (by simp)) hfo (fun _ => rfl) (by
        intro _ c hc he
        cases e with
        | nil => cases he
        | cons a t => exact hnc c hc (by simpa using he)) (by
        intro _ he b r hbr hbs
        exfalso
        cases hm with
        | nil => simp at hbr
        | cons _ _ => simp only [List.cons_append, List.cons.injEq] at hbr; exact absurd hbr.1.symm hbs)
    obtain ⟨l', h3, h4⟩ := more_complete (fails := false) hv hm ([] ++ [f]) [] [] l line hends (fun _ => rfl)
      (fun h => absurd rfl h) (by simp) (by simp; omega) (fun g hg => hw2 g (by simp [hg]))
    refine ⟨l' + 1, ?_⟩
    rw [show e ++ es = e ++ (es ++ ([] ++ [])) by simp, h1, h3]; simp

/-- The end of records is recognized. -/
theorem pRecord_eof (hv : o.valid = true) (hfl : fails = false) (hst : o.standalone = false) (hmf : 1 ≤ o.maxFields) {data : Bytes}
    (h : NoRecords o data) (line : Nat) : ∃ l, pRecord o fails data line = (.eof, [], l, l) := by
  obtain ⟨sk, tail, rfl, hs, ht⟩ := h
  rw [pRecord_skip hv hmf hs]
  have end_ : ∀ l, pRecord o fails [] l = (.eof, [], l, l) := by
    intro l
    unfold pRecord pNextRecord
    rw [if_pos ⟨hst, rfl⟩, hfl]; rfl
  rcases ht with rfl | ⟨c, l, hc, rfl, hl⟩
  · exact ⟨_, end_ _⟩
  · refine ⟨line + lfs sk + 1, ?_⟩
    unfold pRecord pNextRecord pNextField
    rw [if_neg (by simp), if_neg (by simp; omega)]
    simp only [PStep.go]
    rw [pRun_eq, pStep_eq (by simp), (cls_iff hv c).2.2.2.1.2 hc]
    simp only [List.isEmpty_nil, Bool.and_self, if_true]
    rw [pSkip_none hl]
    exact end_ _

/-! ## Soundness -/

theorem pQuoted_sound (hv : o.valid = true) {q : UInt8} (hq : o.quote = some q) {acc data : Bytes} {line : Nat} {f r : Bytes} {l : Nat}
    (h : pQuoted o fails acc data line = .ok (f, r, l)) :
    ∃ f0 e, InsideEnc o q f0 e ∧ data = e ++ q :: r ∧ f = acc ++ f0 ∧ f.length ≤ o.maxLen ∧ (r = [] → fails = false) := by
  have hqc : quoteChar o = q := by unfold quoteChar; rw [hq]; rfl
  generalize hk : data.length = k
  induction k using Nat.strongRecOn generalizing data acc line with
  | _ k ih =>
    subst hk
    rw [pQuoted.eq_def] at h
    split at h
    · cases h
    · rename_i hmx
      cases data with
      | nil => cases h
      | cons b r0 =>
        simp only at h
        split at h
        · rename_i hcq
          have hbq : b = q := by
            have := (cls_iff hv b).2.1.1 hcq
            rw [hq] at this; exact (Option.some.inj this).symm
          subst hbq
          cases r0 with
          | nil =>
            simp only at h
            split at h
            · cases h
            · rename_i hfl
              cases h
              exact ⟨[], [], .nil, rfl, by simp, by omega, fun _ => by simpa using hfl⟩
          | cons c r1 =>
            simp only at h
            split at h
            · rename_i hc
              rw [hqc] at hc
              subst hc
              obtain ⟨f0, e, h1, h2, h3, h4, h5⟩ := ih r1.length (by simp; omega) h rfl
              exact ⟨_ :: f0, _ :: _ :: e, .twice h1, by rw [h2]; rfl, by rw [h3]; simp, h4, h5⟩
            · cases h
              exact ⟨[], [], .nil, rfl, by simp, by omega, fun h => by cases h⟩
        · rename_i hcq
          split at h
          · rename_i hce
            cases r0 with
            | nil => cases h
            | cons c r1 =>
              obtain ⟨f0, e, h1, h2, h3, h4, h5⟩ := ih r1.length (by simp; omega) h rfl
              exact ⟨c :: f0, b :: c :: e, .escaped ((cls_iff hv b).1.1 hce) h1, by rw [h2]; rfl, by rw [h3]; simp, h4, h5⟩
          · rename_i hce
            obtain ⟨f0, e, h1, h2, h3, h4, h5⟩ := ih r0.length (by simp) h rfl
            refine ⟨b :: f0, b :: e, .char ?_ ?_ h1, by rw [h2]; rfl, by rw [h3]; simp, h4, h5⟩
            · rintro rfl; exact hcq ((cls_iff hv b).2.1.2 hq)
            · intro he; exact hce ((cls_iff hv b).1.2 he)

/-- An encoding of the rest of a field, after `acc`. -/
def RestEnc (o : ROpts) (acc f0 e0 : Bytes) : Prop :=
  PlainEnc o f0 e0 ∨ acc = [] ∧ ∃ q e', o.quote = some q ∧ InsideEnc o q f0 e' ∧ e0 = q :: (e' ++ [q])

/-- The rest of a record, after `fields`, `acc`. -/
structure Tail (o : ROpts) (fails : Bool) (fields : List Bytes) (acc data : Bytes) (fs : List Bytes) (rest : Bytes)
    (f0 e0 : Bytes) (fs' : List Bytes) (es nl : Bytes) : Prop where
  first : RestEnc o acc f0 e0
  more : MoreEnc o fs' es
  isFields : fs = fields ++ (acc ++ f0) :: fs'
  cut : data = e0 ++ (es ++ (nl ++ rest))
  ends : Ends nl rest
  nofail : nl = [] → fails = false
  lengths : ∀ f ∈ (acc ++ f0) :: fs', f.length ≤ o.maxLen
  count : fields.length + 1 ≤ o.maxFields → fs.length ≤ o.maxFields
  noComment : fields = [] → acc = [] → ∀ c, o.comment = some c → (e0 ++ es).head? ≠ some c
  notEmpty : fields = [] → acc = [] → e0 ++ es = [] → nl ≠ [] → o.skipEmptyLines = false

/-- How a record was read: what remained of it was in the grammar, or a line was skipped. -/
def Sound (o : ROpts) (fails : Bool) (fields : List Bytes) (acc data : Bytes) (fs : List Bytes) (rest : Bytes) (l la : Nat) : Prop :=
  (∃ f0 e0 fs' es nl, Tail o fails fields acc data fs rest f0 e0 fs' es nl) ∨
  (fields = [] ∧ acc = [] ∧ ∃ sk data' line', Skipped o sk ∧ sk ≠ [] ∧ data = sk ++ data' ∧
    pRecord o fails data' line' = (.record fs, rest, l, la))

/-- `Skipped` is closed under concatenation. -/
theorem Skipped.append {a b : Bytes} (h : Skipped o a) (h' : Skipped o b) : Skipped o (a ++ b) := by
  induction h with
  | nil => exact h'
  | comment hc hl t ih =>
    rw [List.cons_append, List.append_assoc, List.cons_append]
    exact .comment hc hl ih
  | lf h t ih => exact .lf h ih
  | crLf h t ih => exact .crLf h ih

theorem pSkip_cut (r : Bytes) : (LF ∉ r ∧ pSkip r = []) ∨ ∃ l, LF ∉ l ∧ r = l ++ LF :: pSkip r := by
  induction r with
  | nil => exact .inl ⟨by simp, rfl⟩
  | cons b r ih =>
    by_cases hb : b = LF
    · subst hb; right; exact ⟨[], by simp, by simp [pSkip]⟩
    · rw [pSkip, if_neg hb]
      rcases ih with ⟨h1, h2⟩ | ⟨l, h1, h2⟩
      · left; exact ⟨by simp only [List.mem_cons, not_or]; exact ⟨fun e => hb e.symm, h1⟩, h2⟩
      · right
        refine ⟨b :: l, by simp only [List.mem_cons, not_or]; exact ⟨fun e => hb e.symm, h1⟩, ?_⟩
        rw [List.cons_append, ← h2]

theorem pRecord_nil_record (hst : o.standalone = false) {line : Nat} {fs : List Bytes} {rest : Bytes} {l la : Nat} :
    pRecord o fails [] line ≠ (.record fs, rest, l, la) := by
  unfold pRecord pNextRecord
  rw [if_pos ⟨hst, rfl⟩]
  cases fails <;> simp [PStep.go, failOut]

/-- What follows `sep` is a field. -/
theorem sound_next {fields : List Bytes} {r : Bytes} {line last : Nat} {fs : List Bytes} {rest : Bytes} {l la : Nat}
    (hne : fields ≠ [])
    (ih : ∀ line last, pRun o fails fields [] r line last = (.record fs, rest, l, la) → Sound o fails fields [] r fs rest l la)
    (h : (pNextField o fields r line last).go o fails = (.record fs, rest, l, la)) :
    ∃ f fs' e es nl, FieldEnc o f e ∧ MoreEnc o fs' es ∧ fs = fields ++ f :: fs' ∧ r = e ++ (es ++ (nl ++ rest)) ∧ Ends nl rest ∧
      (nl = [] → fails = false) ∧ (∀ g ∈ f :: fs', g.length ≤ o.maxLen) ∧ (fields.length ≤ o.maxFields → fs.length ≤ o.maxFields) := by
  unfold pNextField at h
  split at h
  · cases h
  · rename_i hmf
    rcases ih _ _ h with ⟨f0, e0, fs', es, nl, t⟩ | ⟨h1, _⟩
    · refine ⟨f0, fs', e0, es, nl, ?_, t.more, t.isFields, t.cut, t.ends, t.nofail, t.lengths, fun h => t.count (by omega)⟩
      rcases t.first with h | ⟨_, q, e', hq, hi, rfl⟩
      · exact .plain h
      · exact .quoted hq hi
    · exact absurd h1 hne

/-- The end of a line. -/
theorem sound_end {fields : List Bytes} {f rest : Bytes} {fs : List Bytes} {l la line last : Nat} {r : Bytes}
    (h : (pEndLineQuoted o fields f r line last).go o fails = (.record fs, rest, l, la)) :
    fs = fields ++ [f] ∧ rest = r := by
  unfold pEndLineQuoted at h
  split at h
  · cases h
  · simp only [PStep.go, Prod.mk.injEq, Ret.record.injEq] at h
    exact ⟨h.1.symm, h.2.1.symm⟩

theorem sound_afterCr {k : Bytes → PStep} {r : Bytes} {fs : List Bytes} {rest : Bytes} {l la : Nat}
    (h : (pAfterCr fails r k).go o fails = (.record fs, rest, l, la)) :
    ∃ r', r = LF :: r' ∧ (k r').go o fails = (.record fs, rest, l, la) := by
  unfold pAfterCr at h
  cases r with
  | nil => cases h
  | cons c r =>
    simp only at h
    split at h
    · cases h
    · rename_i hc
      exact ⟨r, by simp only [ne_eq, Classical.not_not] at hc; rw [hc], h⟩

theorem pEndLine_noskip {fields : List Bytes} {acc r : Bytes} {line last : Nat}
    (h : (o.skipEmptyLines && fields.isEmpty && acc.isEmpty) = false) :
    pEndLine o fails fields acc r line last = pEndLineQuoted o fields acc r line last := by
  unfold pEndLine pEndLineQuoted; rw [h]; simp

theorem pRun_sound (hv : o.valid = true) (hst : o.standalone = false) : ∀ (k : Nat) {fields : List Bytes} {acc data : Bytes}
    {line last : Nat} {fs : List Bytes} {rest : Bytes} {l la : Nat}, data.length = k →
    pRun o fails fields acc data line last = (.record fs, rest, l, la) → Sound o fails fields acc data fs rest l la := by
  intro k
  induction k using Nat.strongRecOn with
  | _ k ih =>
    intro fields acc data line last fs rest l la hk h
    subst hk
    obtain ⟨v1, v2, v3, v4, v5⟩ := valid_cases hv
    rw [pRun_eq] at h
    by_cases hmx : acc.length > o.maxLen
    · rw [pStep.eq_def, if_pos hmx] at h; cases h
    cases data with
    | nil =>
      rw [pStep.eq_def, if_neg hmx] at h
      cases hfl : fails with
      | true => rw [hfl] at h; cases h
      | false =>
        rw [hfl] at h
        simp only [PStep.go, Bool.false_eq_true, if_false, Prod.mk.injEq, Ret.record.injEq] at h
        obtain ⟨h1, h2, _⟩ := h
        subst h1 h2
        left
        refine ⟨[], [], [], [], [], .inl .nil, .nil, by simp, rfl, .inr (.inr ⟨rfl, rfl⟩), fun _ => rfl, ?_, ?_, ?_, ?_⟩
        · intro f hf; simp only [List.append_nil, List.mem_singleton] at hf; subst hf; omega
        · intro h; simp; omega
        · intro _ _ c _ h; cases h
        · intro _ _ _ h; exact absurd rfl h
    | cons b r =>
      rw [pStep_eq hmx] at h
      -- an ordinary character
      have ord : ∀ (line last : Nat), PlainEnc o [b] [b] →
          pRun o fails fields (acc ++ [b]) r line last = (.record fs, rest, l, la) →
          (fields = [] → acc = [] → o.comment ≠ some b) → Sound o fails fields acc (b :: r) fs rest l la := by
        intro line last hb h hcm
        have hbs : ¬Special o b := by
          cases hb with
          | char h _ => exact h
        rcases ih r.length (by simp) rfl h with ⟨f0, e0, fs', es, nl, t⟩ | ⟨_, h1, _⟩
        · left
          obtain ⟨t1, t2, t3, t4, t5, t6, t7, t8, t9, t10⟩ := t
          have hp : PlainEnc o f0 e0 := by
            rcases t1 with h | ⟨h, _⟩
            · exact h
            · simp at h
          refine ⟨b :: f0, b :: e0, fs', es, nl, .inl (.char hbs hp), t2, by rw [t3]; simp, by rw [t4]; rfl, t5, t6,
            by simpa using t7, t8, ?_, by intro _ _ h; cases h⟩
          intro a1 a2 c hc he
          simp only [List.cons_append, List.head?_cons, Option.some.injEq] at he
          subst he
          exact hcm a1 a2 hc
        · simp at h1
      have hnoskip_tail : ∀ {nl : Bytes}, (o.skipEmptyLines && fields.isEmpty && acc.isEmpty) = false →
          fields = [] → acc = [] → ([] : Bytes) ++ [] = [] → nl ≠ [] → o.skipEmptyLines = false := by
        intro nl h a1 a2 _ _
        rw [a1, a2] at h
        simpa using h
      have endrec : ∀ (nl r' : Bytes) (line : Nat), b :: r = nl ++ r' → (nl = [LF] ∨ nl = [CR, LF]) →
          (pEndLine o fails fields acc r' line last).go o fails = (.record fs, rest, l, la) →
          Sound o fails fields acc (b :: r) fs rest l la := by
        intro nl r' line hnl hn h
        have hends : Ends nl r' := by rcases hn with h | h <;> simp [Ends, h]
        have hnn : nl ≠ [] := by rcases hn with h | h <;> simp [h]
        by_cases hs : (o.skipEmptyLines && fields.isEmpty && acc.isEmpty) = true
        · right
          unfold pEndLine at h
          rw [if_pos hs] at h
          simp only [Bool.and_eq_true, List.isEmpty_iff] at hs
          refine ⟨hs.1.2, hs.2, nl, r', _, ?_, hnn, hnl, h⟩
          rcases hn with rfl | rfl
          · exact .lf hs.1.1 .nil
          · exact .crLf hs.1.1 .nil
        · have hs : (o.skipEmptyLines && fields.isEmpty && acc.isEmpty) = false := by simpa using hs
          rw [pEndLine_noskip hs] at h
          obtain ⟨h1, h2⟩ := sound_end h
          subst h2
          left
          refine ⟨[], [], [], [], nl, .inl .nil, .nil, by rw [h1]; simp, by rw [hnl]; simp, hends, fun h => absurd h hnn, ?_, ?_, ?_, ?_⟩
          · intro f hf; simp only [List.append_nil, List.mem_singleton] at hf; subst hf; omega
          · intro h; rw [h1]; simp; omega
          · intro _ _ c _ h; cases h
          · exact hnoskip_tail hs
      have nextf : ∀ (f0 e0 : Bytes) (r' : Bytes) (line : Nat), b :: r = e0 ++ o.sep :: r' → RestEnc o acc f0 e0 → (acc ++ f0).length ≤ o.maxLen →
          (fields = [] → acc = [] → ∀ c, o.comment = some c → e0.head? ≠ some c) →
          (pNextField o (fields ++ [acc ++ f0]) r' line last).go o fails = (.record fs, rest, l, la) →
          Sound o fails fields acc (b :: r) fs rest l la := by
        intro f0 e0 r' line hcut hre hlen hcm h
        have hlt : r'.length < (b :: r).length := by rw [hcut]; simp; omega
        obtain ⟨f, fs', e, es, nl, h1, h2, h3, h4, h5, h6, h7, h8⟩ := sound_next (by simp)
          (fun line last h => ih r'.length hlt rfl h) h
        left
        refine ⟨f0, e0, f :: fs', o.sep :: (e ++ es), nl, hre, .cons h1 h2, by rw [h3]; simp, by rw [hcut, h4]; simp, h5, h6, ?_, ?_, ?_, ?_⟩
        · intro g hg
          rcases List.mem_cons.1 hg with rfl | hg
          · exact hlen
          · exact h7 g hg
        · intro h; exact h8 (by simp; omega)
        · intro a1 a2 c hc he
          cases e0 with
          | nil => simp only [List.nil_append, List.head?_cons, Option.some.injEq] at he; exact (v1 c hc).2.2 he.symm
          | cons x t => exact hcm a1 a2 c hc (by simpa using he)
        · intro _ _ h; simp at h
      cases hc : cls o b with
      | other =>
        rw [hc] at h
        have hcl := (cls_iff hv b).2.2.2.2.2.2.1 hc
        exact ord _ _ (.char hcl.1 .nil) h (fun _ _ => hcl.2)
      | comment =>
        rw [hc] at h
        simp only at h
        have hcc := (cls_iff hv b).2.2.2.1.1 hc
        by_cases hcond : (fields.isEmpty && acc.isEmpty) = true
        · rw [if_pos hcond] at h
          simp only [Bool.and_eq_true, List.isEmpty_iff] at hcond
          right
          rcases pSkip_cut r with ⟨_, h2⟩ | ⟨l0, h1, h2⟩
          · rw [h2] at h
            exact absurd h (pRecord_nil_record hst)
          · refine ⟨hcond.1, hcond.2, b :: (l0 ++ LF :: []), pSkip r, _, .comment hcc h1 .nil, by simp, ?_, h⟩
            conv => lhs; rw [h2]
            simp
        · rw [if_neg hcond] at h
          refine ord _ _ (.char ?_ .nil) h ?_
          · obtain ⟨w1, w2, w3⟩ := v1 b hcc
            rintro (h | h | h | h | h)
            · exact w1 h
            · exact w2 h
            · exact w3 h
            · exact (v4 b h).2.2.1 hcc
            · exact (v5 b h).2.2.1 hcc
          · intro a1 a2; rw [a1, a2] at hcond; simp at hcond
      | lf =>
        rw [hc] at h
        have hb := (cls_iff hv b).2.2.2.2.2.1.1 hc
        subst hb
        exact endrec [LF] r _ rfl (.inl rfl) h
      | cr =>
        rw [hc] at h
        have hb := (cls_iff hv b).2.2.2.2.1.1 hc
        subst hb
        obtain ⟨r', h1, h2⟩ := sound_afterCr h
        subst h1
        exact endrec [CR, LF] r' _ rfl (.inr rfl) h2
      | sep =>
        rw [hc] at h
        have hb := (cls_iff hv b).2.2.1.1 hc
        refine nextf [] [] r line (by rw [hb]; rfl) (.inl .nil) (by simp; omega) (by intro _ _ c _ h; cases h) ?_
        rw [List.append_nil]; exact h
      | escape =>
        rw [hc] at h
        cases r with
        | nil => cases h
        | cons c r =>
          simp only at h
          have hce := (cls_iff hv b).1.1 hc
          rcases ih r.length (by simp; omega) rfl h with ⟨f0, e0, fs', es, nl, t⟩ | ⟨_, h1, _⟩
          · left
            obtain ⟨t1, t2, t3, t4, t5, t6, t7, t8, t9, t10⟩ := t
            have hp : PlainEnc o f0 e0 := by
              rcases t1 with h | ⟨h, _⟩
              · exact h
              · simp at h
            refine ⟨c :: f0, b :: c :: e0, fs', es, nl, .inl (.escaped hce hp), t2, by rw [t3]; simp, by rw [t4]; rfl, t5, t6,
              by simpa using t7, t8, ?_, by intro _ _ h; cases h⟩
            intro a1 a2 c hc he
            simp only [List.cons_append, List.head?_cons, Option.some.injEq] at he
            subst he
            exact (v5 _ hce).2.2.1 hc
          · simp at h1
      | quote =>
        rw [hc] at h
        simp only at h
        have hcq := (cls_iff hv b).2.1.1 hc
        by_cases hem : acc.isEmpty = true
        · rw [if_pos hem] at h
          have hacc : acc = [] := by simpa using hem
          subst hacc
          cases hq : pQuoted o fails [] r line with
          | error e => rw [hq] at h; cases h
          | ok p =>
            obtain ⟨f, r', line'⟩ := p
            rw [hq] at h
            simp only at h
            obtain ⟨f0, e, h1, h2, h3, h4, h5⟩ := pQuoted_sound hv hcq hq
            rw [List.nil_append] at h3
            subst h3
            have hre : RestEnc o [] f (b :: (e ++ [b])) := .inr ⟨rfl, b, e, hcq, h1, rfl⟩
            have hcut : b :: r = (b :: (e ++ [b])) ++ r' := by rw [h2]; simp
            have hnc : ∀ c, o.comment = some c → (b :: (e ++ [b])).head? ≠ some c := by
              intro c hc he
              simp only [List.head?_cons, Option.some.injEq] at he
              subst he
              exact (v4 _ hcq).2.2.1 hc
            have fin : ∀ (nl r'' : Bytes) (line : Nat), r' = nl ++ r'' → (nl = [LF] ∨ nl = [CR, LF]) →
                (pEndLineQuoted o fields f r'' line last).go o fails = (.record fs, rest, l, la) →
                Sound o fails fields [] (b :: r) fs rest l la := by
              intro nl r'' line hnl hn h
              have hends : Ends nl r'' := by rcases hn with h | h <;> simp [Ends, h]
              have hnn : nl ≠ [] := by rcases hn with h | h <;> simp [h]
              obtain ⟨h6, h7⟩ := sound_end h
              subst h7
              left
              refine ⟨f, b :: (e ++ [b]), [], [], nl, hre, .nil, by rw [h6]; simp, by rw [hcut, hnl]; simp, hends,
                fun h => absurd h hnn, ?_, ?_, ?_, by intro _ _ h; simp at h⟩
              · intro g hg; simp only [List.nil_append, List.mem_singleton] at hg; subst hg; exact h4
              · intro h; rw [h6]; simp; omega
              · intro _ _ c hc; rw [List.append_nil]; exact hnc c hc
            unfold pAfterQuoted at h
            cases r' with
            | nil =>
              have hfl := h5 rfl
              rw [hfl] at h
              simp only [PStep.go, Bool.false_eq_true, if_false, Prod.mk.injEq, Ret.record.injEq] at h
              obtain ⟨g1, g2, _⟩ := h
              subst g1 g2
              left
              refine ⟨f, b :: (e ++ [b]), [], [], [], hre, .nil, by simp, by rw [hcut]; simp, .inr (.inr ⟨rfl, rfl⟩),
                fun _ => hfl, ?_, ?_, ?_, by intro _ _ h; simp at h⟩
              · intro g hg; simp only [List.nil_append, List.mem_singleton] at hg; subst hg; exact h4
              · intro h; simp; omega
              · intro _ _ c hc; rw [List.append_nil]; exact hnc c hc
            | cons c r' =>
              simp only at h
              cases hcc : cls o c with
              | sep =>
                rw [hcc] at h
                have hb := (cls_iff hv c).2.2.1.1 hcc
                exact nextf f (b :: (e ++ [b])) r' line' (by rw [hcut, hb]) hre (by simpa using h4)
                  (fun _ _ => hnc) (by rw [List.nil_append]; exact h)
              | lf =>
                rw [hcc] at h
                have hb := (cls_iff hv c).2.2.2.2.2.1.1 hcc
                exact fin [LF] r' _ (by rw [hb]; rfl) (.inl rfl) h
              | cr =>
                rw [hcc] at h
                have hb := (cls_iff hv c).2.2.2.2.1.1 hcc
                obtain ⟨r'', g1, g2⟩ := sound_afterCr h
                exact fin [CR, LF] r'' _ (by rw [hb, g1]; rfl) (.inr rfl) g2
              | other => rw [hcc] at h; cases h
              | comment => rw [hcc] at h; cases h
              | quote => rw [hcc] at h; cases h
              | escape => rw [hcc] at h; cases h
        · rw [if_neg hem] at h; cases h

/-- A record which is read is in the grammar. -/
theorem pRecord_sound (hv : o.valid = true) (hst : o.standalone = false) {data : Bytes} {line : Nat} {fs : List Bytes}
    {rest : Bytes} {l la : Nat} (h : pRecord o fails data line = (.record fs, rest, l, la)) :
    ∃ sk enc nl, RecordAt o data fs sk enc nl rest ∧ Within o fs ∧ (nl = [] → fails = false) := by
  generalize hk : data.length = k
  induction k using Nat.strongRecOn generalizing data line with
  | _ k ih =>
    subst hk
    by_cases hne : data = []
    · subst hne; exact absurd h (pRecord_nil_record hst)
    · have h0 := h
      unfold pRecord pNextRecord pNextField at h
      rw [if_neg (fun h => hne h.2)] at h
      split at h
      · cases h
      · rename_i hmf
        simp only [PStep.go] at h
        rcases pRun_sound hv hst _ rfl h with ⟨f0, e0, fs', es, nl, t⟩ | ⟨_, _, sk, data', line', h1, h2, h3, h4⟩
        · obtain ⟨t1, t2, t3, t4, t5, t6, t7, t8, t9, t10⟩ := t
          rw [List.nil_append, List.nil_append] at t3
          subst t3
          refine ⟨[], e0 ++ es, nl, ⟨by rw [t4]; simp, .nil, .mk ?_ t2, t9 rfl rfl, ?_, t5⟩, ⟨t8 ?_, t7⟩, t6⟩
          · rcases t1 with h | ⟨_, q, e', hq, hi, rfl⟩
            · exact .plain h
            · exact .quoted hq hi
          · intro he
            have hnn : nl ≠ [] := by
              intro hn
              apply hne
              rcases t5 with h | h | ⟨_, h⟩
              · rw [hn] at h; cases h
              · rw [hn] at h; cases h
              · rw [t4, ← List.append_assoc, he, hn, h]; rfl
            exact ⟨t10 rfl rfl he hnn, hnn⟩
          · simp at hmf ⊢; omega
        · have hlt : data'.length < data.length := by
            rw [h3, List.length_append]
            have : sk.length ≠ 0 := fun h => h2 (List.eq_nil_of_length_eq_zero h)
            omega
          obtain ⟨sk', enc, nl, g1, g2, g3⟩ := ih _ hlt h4 rfl
          exact ⟨sk ++ sk', enc, nl, ⟨by rw [h3, g1.cut]; simp, h1.append g1.isSkipped, g1.isEnc, g1.noComment, g1.notEmpty, g1.ends⟩,
            g2, g3⟩

/-- The end of data is reported only at the beginning of a record, perhaps after skipping a line. -/
theorem pRun_eof_sound (hv : o.valid = true) (hst : o.standalone = false) : ∀ (k : Nat) {fields : List Bytes} {acc data : Bytes}
    {line last : Nat} {rest : Bytes} {l la : Nat}, data.length = k →
    pRun o fails fields acc data line last = (.eof, rest, l, la) →
    fields = [] ∧ acc = [] ∧
      ((∃ sk data' line', Skipped o sk ∧ sk ≠ [] ∧ data = sk ++ data' ∧ pRecord o fails data' line' = (.eof, rest, l, la)) ∨
        fails = false ∧ rest = [] ∧ ∃ c t, o.comment = some c ∧ data = c :: t ∧ LF ∉ t) := by
  intro k
  induction k using Nat.strongRecOn with
  | _ k ih =>
    intro fields acc data line last rest l la hk h
    subst hk
    obtain ⟨v1, v2, v3, v4, v5⟩ := valid_cases hv
    rw [pRun_eq] at h
    by_cases hmx : acc.length > o.maxLen
    · rw [pStep.eq_def, if_pos hmx] at h; cases h
    cases data with
    | nil =>
      rw [pStep.eq_def, if_neg hmx] at h
      cases hfl : fails with
      | true => rw [hfl] at h; cases h
      | false => rw [hfl] at h; cases h
    | cons b r =>
      rw [pStep_eq hmx] at h
      have next : ∀ {g : Bytes} {r' : Bytes} {line : Nat}, r'.length < (b :: r).length →
          (pNextField o (fields ++ [g]) r' line last).go o fails ≠ (.eof, rest, l, la) := by
        intro g r' line hlt h
        unfold pNextField at h
        split at h
        · cases h
        · simp only [PStep.go] at h
          have := (ih _ hlt rfl h).1
          simp at this
      have endq : ∀ {g : Bytes} {r' : Bytes} {line : Nat},
          (pEndLineQuoted o fields g r' line last).go o fails ≠ (.eof, rest, l, la) := by
        intro g r' line h
        unfold pEndLineQuoted at h
        split at h <;> cases h
      have aftercr : ∀ {r' : Bytes} {k : Bytes → PStep}, (pAfterCr fails r' k).go o fails = (.eof, rest, l, la) →
          ∃ r'', r' = LF :: r'' ∧ (k r'').go o fails = (.eof, rest, l, la) := by
        intro r' k h
        unfold pAfterCr at h
        cases r' with
        | nil => cases h
        | cons c r' =>
          simp only at h
          split at h
          · cases h
          · rename_i hc
            exact ⟨r', by simp only [ne_eq, Classical.not_not] at hc; rw [hc], h⟩
      have endl : ∀ {nl r' : Bytes} {line : Nat}, b :: r = nl ++ r' → (nl = [LF] ∨ nl = [CR, LF]) →
          (pEndLine o fails fields acc r' line last).go o fails = (.eof, rest, l, la) →
          fields = [] ∧ acc = [] ∧ ∃ sk data' line', Skipped o sk ∧ sk ≠ [] ∧ b :: r = sk ++ data' ∧
            pRecord o fails data' line' = (.eof, rest, l, la) := by
        intro nl r' line hcut hn h
        by_cases hs : (o.skipEmptyLines && fields.isEmpty && acc.isEmpty) = true
        · unfold pEndLine at h
          rw [if_pos hs] at h
          simp only [Bool.and_eq_true, List.isEmpty_iff] at hs
          refine ⟨hs.1.2, hs.2, nl, r', _, ?_, ?_, hcut, h⟩
          · rcases hn with rfl | rfl
            · exact .lf hs.1.1 .nil
            · exact .crLf hs.1.1 .nil
          · rcases hn with rfl | rfl <;> simp
        · rw [pEndLine_noskip (by simpa using hs)] at h
          exact absurd h endq
      cases hc : cls o b with
      | other =>
        rw [hc] at h
        have := (ih r.length (by simp) rfl h).2.1
        simp at this
      | comment =>
        rw [hc] at h
        simp only at h
        have hcc := (cls_iff hv b).2.2.2.1.1 hc
        by_cases hcond : (fields.isEmpty && acc.isEmpty) = true
        · rw [if_pos hcond] at h
          simp only [Bool.and_eq_true, List.isEmpty_iff] at hcond
          refine ⟨hcond.1, hcond.2, ?_⟩
          rcases pSkip_cut r with ⟨h1, h2⟩ | ⟨l0, h1, h2⟩
          · rw [h2] at h
            right
            unfold pNextRecord at h
            rw [if_pos ⟨hst, rfl⟩] at h
            cases hfl : fails with
            | true => rw [hfl] at h; cases h
            | false =>
              rw [hfl] at h
              simp only [PStep.go, Bool.false_eq_true, if_false, Prod.mk.injEq] at h
              exact ⟨rfl, h.2.1.symm, b, r, hcc, rfl, h1⟩
          · left
            refine ⟨b :: (l0 ++ LF :: []), pSkip r, _, .comment hcc h1 .nil, by simp, ?_, h⟩
            conv => lhs; rw [h2]
            simp
        · rw [if_neg hcond] at h
          have := (ih r.length (by simp) rfl h).2.1
          simp at this
      | lf =>
        rw [hc] at h
        have hb := (cls_iff hv b).2.2.2.2.2.1.1 hc
        subst hb
        obtain ⟨h1, h2, h3⟩ := endl (nl := [LF]) rfl (.inl rfl) h
        exact ⟨h1, h2, .inl h3⟩
      | cr =>
        rw [hc] at h
        have hb := (cls_iff hv b).2.2.2.2.1.1 hc
        subst hb
        obtain ⟨r', h1, h2⟩ := aftercr h
        subst h1
        obtain ⟨h1, h2, h3⟩ := endl (nl := [CR, LF]) rfl (.inr rfl) h2
        exact ⟨h1, h2, .inl h3⟩
      | sep =>
        rw [hc] at h
        exact absurd h (next (by simp))
      | escape =>
        rw [hc] at h
        cases r with
        | nil => cases h
        | cons c r =>
          have := (ih r.length (by simp; omega) rfl h).2.1
          simp at this
      | quote =>
        rw [hc] at h
        simp only at h
        by_cases hem : acc.isEmpty = true
        · rw [if_pos hem] at h
          cases hq : pQuoted o fails [] r line with
          | error e => rw [hq] at h; cases h
          | ok p =>
            obtain ⟨f, r', line'⟩ := p
            rw [hq] at h
            simp only at h
            have hlt := pQuoted_length hq
            unfold pAfterQuoted at h
            cases r' with
            | nil => simp only at h; cases hfl : fails <;> rw [hfl] at h <;> cases h
            | cons c r' =>
              simp only at h
              simp only [List.length_cons] at hlt
              cases hcc : cls o c with
              | sep => rw [hcc] at h; exact absurd h (next (by simp; omega))
              | lf => rw [hcc] at h; exact absurd h endq
              | cr =>
                rw [hcc] at h
                obtain ⟨_, _, g2⟩ := aftercr h
                exact absurd g2 endq
              | other => rw [hcc] at h; cases h
              | comment => rw [hcc] at h; cases h
              | quote => rw [hcc] at h; cases h
              | escape => rw [hcc] at h; cases h
        · rw [if_neg hem] at h; cases h

/-- The end of records is reported only at the end of records. -/
theorem pRecord_eof_sound (hv : o.valid = true) (hst : o.standalone = false) {data : Bytes} {line : Nat}
    {rest : Bytes} {l la : Nat} (h : pRecord o fails data line = (.eof, rest, l, la)) :
    NoRecords o data ∧ fails = false ∧ rest = [] := by
  generalize hk : data.length = k
  induction k using Nat.strongRecOn generalizing data line with
  | _ k ih =>
    subst hk
    by_cases hne : data = []
    · subst hne
      unfold pRecord pNextRecord at h
      rw [if_pos ⟨hst, rfl⟩] at h
      cases hfl : fails with
      | true => rw [hfl] at h; cases h
      | false =>
        rw [hfl] at h
        simp only [PStep.go, Bool.false_eq_true, if_false, Prod.mk.injEq] at h
        exact ⟨⟨[], [], rfl, .nil, .inl rfl⟩, rfl, h.2.1.symm⟩
    · unfold pRecord pNextRecord pNextField at h
      rw [if_neg (fun h => hne h.2)] at h
      split at h
      · cases h
      · simp only [PStep.go] at h
        obtain ⟨_, _, h1⟩ := pRun_eof_sound hv hst _ rfl h
        rcases h1 with ⟨sk, data', line', h1, h2, h3, h4⟩ | ⟨h1, h2, c, t, h3, h4, h5⟩
        · have hlt : data'.length < data.length := by
            rw [h3, List.length_append]
            have : sk.length ≠ 0 := fun h => h2 (List.eq_nil_of_length_eq_zero h)
            omega
          obtain ⟨⟨sk', tl, g1, g2, g3⟩, g4⟩ := ih _ hlt h4 rfl
          exact ⟨⟨sk ++ sk', tl, by rw [h3, g1]; simp, h1.append g2, g3⟩, g4⟩
        · exact ⟨⟨[], data, rfl, .nil, .inr ⟨c, t, h3, h4, h5⟩⟩, h1, h2⟩

end Csv
end Riegeli
