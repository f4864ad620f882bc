import Verif.Csv
/-!
# A parser of CSV on the remaining bytes, and a proof that `ReadRecord()` computes it for every fragmentation
-/
namespace Riegeli
namespace Csv
open Lines Rd

/-- Skips a line. -/
def pSkip : Bytes → Bytes
  | [] => []
  | b :: r => if b = LF then r else pSkip r

theorem pSkip_length (d : Bytes) : (pSkip d).length ≤ d.length := by
  induction d with
  | nil => simp [pSkip]
  | cons b r ih => simp only [pSkip]; split <;> simp <;> omega

/-- A failure when data end: the source failed or it ended. -/
def endErr (fails : Bool) (e : Err) : Err := if fails then .source else e

/-- The rest of a quoted field, after `acc`: the field, the rest of data, the line number. -/
def pQuoted (o : ROpts) (fails : Bool) (acc data : Bytes) (line : Nat) : Except Err (Bytes × Bytes × Nat) :=
  if acc.length > o.maxLen then .error .maxLen
  else
    match data with
    | [] => .error (endErr fails .noClosingQuote)
    | b :: r =>
      if cls o b = .quote then
        match r with
        | [] => if fails then .error .source else .ok (acc, [], line)
        | c :: r' => if c = quoteChar o then pQuoted o fails (acc ++ [c]) r' line else .ok (acc, c :: r', line)
      else if cls o b = .escape then
        match r with
        | [] => .error (endErr fails .afterEscape)
        | c :: r' => pQuoted o fails (acc ++ [c]) r' line
      else pQuoted o fails (acc ++ [b]) r (if cls o b = .lf then line + 1 else line)
termination_by data.length

theorem pQuoted_length {o : ROpts} {fails : Bool} {acc data : Bytes} {line : Nat} {f r : Bytes} {l : Nat}
    (h : pQuoted o fails acc data line = .ok (f, r, l)) : r.length < data.length := by
  generalize hk : data.length = k
  induction k using Nat.strongRecOn generalizing data acc line with
  | _ k ih =>
    subst hk
    rw [pQuoted.eq_def] at h
    split at h
    · cases h
    · cases data with
      | nil => cases h
      | cons b r0 =>
        simp only at h
        split at h
        · cases r0 with
          | nil => simp only at h; split at h <;> cases h; simp
          | cons c r1 =>
            simp only at h
            split at h
            · have := ih r1.length (by simp; omega) h rfl
              simp; omega
            · cases h; simp
        · split at h
          · cases r0 with
            | nil => cases h
            | cons c r1 =>
              have := ih r1.length (by simp; omega) h rfl
              simp; omega
          · have := ih r0.length (by simp) h rfl
            simp; omega

/-- What `ReadRecord()` gives, as seen by the user: the value, the remaining data, `line_number()`, `last_line_number()`. After a
failure, only its kind. -/
abbrev Out := Ret × Bytes × Nat × Nat

/-- A failure. -/
def failOut (e : Err) : Out := (.fail e, [], 0, 0)

/-- One step of the parser. -/
inductive PStep
  | done (x : Out)
  | more (fields : List Bytes) (acc data : Bytes) (line last : Nat)

/-- Compare `nextField`. -/
def pNextField (o : ROpts) (fields : List Bytes) (data : Bytes) (line last : Nat) : PStep :=
  if fields.length = o.maxFields then .done (failOut .maxFields) else .more fields [] data line last

/-- Compare `nextRecord`. -/
def pNextRecord (o : ROpts) (fails : Bool) (data : Bytes) (line : Nat) : PStep :=
  if o.standalone = false ∧ data = [] then .done (if fails then failOut .source else (.eof, [], line, line))
  else pNextField o [] data line line

/-- Compare `endLine`. -/
def pEndLine (o : ROpts) (fails : Bool) (fields : List Bytes) (acc data : Bytes) (line last : Nat) : PStep :=
  if o.skipEmptyLines && fields.isEmpty && acc.isEmpty then pNextRecord o fails data (line + 1)
  else if o.standalone then .done (failOut .newline)
  else .done (.record (fields ++ [acc]), data, line + 1, last)

/-- Compare `endLineQuoted`. -/
def pEndLineQuoted (o : ROpts) (fields : List Bytes) (acc data : Bytes) (line last : Nat) : PStep :=
  if o.standalone then .done (failOut .newline) else .done (.record (fields ++ [acc]), data, line + 1, last)

/-- Compare `afterCr`. -/
def pAfterCr (fails : Bool) (data : Bytes) (k : Bytes → PStep) : PStep :=
  match data with
  | [] => .done (failOut (endErr fails .crNoLf))
  | c :: r => if c ≠ LF then .done (failOut .crNoLf) else k r

/-- Compare `afterQuoted`. -/
def pAfterQuoted (o : ROpts) (fails : Bool) (fields : List Bytes) (acc data : Bytes) (line last : Nat) : PStep :=
  match data with
  | [] => .done (if fails then failOut .source else (.record (fields ++ [acc]), [], line + 1, last))
  | b :: r =>
    match cls o b with
    | .sep => pNextField o (fields ++ [acc]) r line last
    | .cr => pAfterCr fails r fun r => pEndLineQuoted o fields acc r line last
    | .lf => pEndLineQuoted o fields acc r line last
    | _ => .done (failOut .afterQuote)

/-- Compare `step`. -/
def pStep (o : ROpts) (fails : Bool) (fields : List Bytes) (acc data : Bytes) (line last : Nat) : PStep :=
  if acc.length > o.maxLen then .done (failOut .maxLen)
  else
    match data with
    | [] => .done (if fails then failOut .source else (.record (fields ++ [acc]), [], line + 1, last))
    | b :: r =>
      match cls o b with
      | .other => .more fields (acc ++ [b]) r line last
      | .comment =>
        if fields.isEmpty && acc.isEmpty then pNextRecord o fails (pSkip r) (line + 1)
        else .more fields (acc ++ [b]) r line last
      | .cr => pAfterCr fails r fun r => pEndLine o fails fields acc r line last
      | .lf => pEndLine o fails fields acc r line last
      | .sep => pNextField o (fields ++ [acc]) r line last
      | .quote =>
        if acc.isEmpty then
          match pQuoted o fails [] r line with
          | .error e => .done (failOut e)
          | .ok (f, r, line) => pAfterQuoted o fails fields f r line last
        else .done (failOut .beforeQuote)
      | .escape =>
        match r with
        | [] => .done (failOut (endErr fails .afterEscape))
        | c :: r => .more fields (acc ++ [c]) r line last

/-- The data left by a step are at most `k` long. -/
def PStep.Le (x : PStep) (k : Nat) : Prop := ∀ fields acc data line last, x = .more fields acc data line last → data.length ≤ k

theorem le_done {x : Out} {k : Nat} : (PStep.done x).Le k := by intro _ _ _ _ _ h; cases h
theorem le_more {fields : List Bytes} {acc data : Bytes} {line last k : Nat} (h : data.length ≤ k) :
    (PStep.more fields acc data line last).Le k := by intro _ _ _ _ _ h; cases h; assumption
theorem PStep.Le.mono {x : PStep} {k k' : Nat} (h : x.Le k) (hk : k ≤ k') : x.Le k' :=
  fun _ _ _ _ _ e => Nat.le_trans (h _ _ _ _ _ e) hk

theorem pNextField_le {o : ROpts} {fields : List Bytes} {data : Bytes} {line last : Nat} :
    (pNextField o fields data line last).Le data.length := by
  unfold pNextField; split
  · exact le_done
  · exact le_more (Nat.le_refl _)

theorem pNextRecord_le {o : ROpts} {fails : Bool} {data : Bytes} {line : Nat} :
    (pNextRecord o fails data line).Le data.length := by
  unfold pNextRecord; split
  · exact le_done
  · exact pNextField_le

theorem pEndLine_le {o : ROpts} {fails : Bool} {fields : List Bytes} {acc data : Bytes} {line last : Nat} :
    (pEndLine o fails fields acc data line last).Le data.length := by
  unfold pEndLine; split
  · exact pNextRecord_le
  · split <;> exact le_done

theorem pEndLineQuoted_le {o : ROpts} {fields : List Bytes} {acc data : Bytes} {line last k : Nat} :
    (pEndLineQuoted o fields acc data line last).Le k := by
  unfold pEndLineQuoted; split <;> exact le_done

theorem pAfterCr_le {fails : Bool} {data : Bytes} {k : Bytes → PStep} (h : ∀ d, (k d).Le d.length) :
    (pAfterCr fails data k).Le data.length := by
  unfold pAfterCr
  cases data with
  | nil => exact le_done
  | cons c r => simp only; split
                · exact le_done
                · exact (h r).mono (by simp)

theorem pAfterQuoted_le {o : ROpts} {fails : Bool} {fields : List Bytes} {acc data : Bytes} {line last : Nat} :
    (pAfterQuoted o fails fields acc data line last).Le data.length := by
  unfold pAfterQuoted
  cases data with
  | nil => exact le_done
  | cons b r =>
    simp only
    split
    · exact pNextField_le.mono (by simp)
    · exact (pAfterCr_le fun d => pEndLineQuoted_le).mono (by simp)
    · exact pEndLineQuoted_le
    · exact le_done

theorem pStep_lt {o : ROpts} {fails : Bool} {fields : List Bytes} {acc data : Bytes} {line last : Nat}
    {fields' : List Bytes} {acc' data' : Bytes} {line' last' : Nat}
    (h : pStep o fails fields acc data line last = .more fields' acc' data' line' last') : data'.length < data.length := by
  cases data with
  | nil => unfold pStep at h; split at h <;> cases h
  | cons b r =>
    suffices (pStep o fails fields acc (b :: r) line last).Le r.length by
      have := this _ _ _ _ _ h
      simp; omega
    unfold pStep
    split
    · exact le_done
    · simp only
      split
      · exact le_more (Nat.le_refl _)
      · split
        · exact pNextRecord_le.mono (pSkip_length r)
        · exact le_more (Nat.le_refl _)
      · exact pAfterCr_le fun d => pEndLine_le
      · exact pEndLine_le
      · exact pNextField_le
      · split
        · split
          · exact le_done
          · rename_i hq
            exact pAfterQuoted_le.mono (Nat.le_of_lt (pQuoted_length hq))
        · exact le_done
      · cases r with
        | nil => exact le_done
        | cons c r => exact le_more (by simp)

/-- Parses the rest of a record. -/
def pRun (o : ROpts) (fails : Bool) (fields : List Bytes) (acc data : Bytes) (line last : Nat) : Out :=
  match _h : pStep o fails fields acc data line last with
  | .done x => x
  | .more fields acc data line last => pRun o fails fields acc data line last
termination_by data.length
decreasing_by exact pStep_lt _h

/-- Continues after a step. -/
def PStep.go (o : ROpts) (fails : Bool) : PStep → Out
  | .done x => x
  | .more fields acc data line last => pRun o fails fields acc data line last

theorem pRun_eq {o : ROpts} {fails : Bool} {fields : List Bytes} {acc data : Bytes} {line last : Nat} :
    pRun o fails fields acc data line last = (pStep o fails fields acc data line last).go o fails := by
  rw [pRun]
  split <;> rename_i h <;> rw [h] <;> rfl

/-- Parses a record. -/
def pRecord (o : ROpts) (fails : Bool) (data : Bytes) (line : Nat) : Out := (pNextRecord o fails data line).go o fails

theorem pRun_tooLong {o : ROpts} {fails : Bool} {fields : List Bytes} {acc data : Bytes} {line last : Nat}
    (h : acc.length > o.maxLen) : pRun o fails fields acc data line last = failOut .maxLen := by
  rw [pRun_eq, pStep.eq_def, if_pos h]; rfl

theorem pQuoted_tooLong {o : ROpts} {fails : Bool} {acc data : Bytes} {line : Nat}
    (h : acc.length > o.maxLen) : pQuoted o fails acc data line = .error .maxLen := by
  rw [pQuoted.eq_def, if_pos h]

/-! ## The code computes it -/

/-- What the user sees of the result of the code. -/
def obs (r : Ret) (s : St) : Out :=
  match r with
  | .fail e => failOut e
  | r => (r, s.src.rest, s.line, s.last)

/-- A reader which can go on. -/
structure SGood (fails : Bool) (s : St) : Prop where
  wf : s.src.Wf
  ok : s.src.ok = true
  fails : s.src.fails = fails

/-- The result of the code is `x`, and the reader can go on unless it failed. -/
def RGood (fails : Bool) (r : Ret) (s : St) (x : Out) : Prop :=
  obs r s = x ∧ ((∀ e, r ≠ .fail e) → SGood fails s)

theorem skipLine_good : ∀ (k : Nat) {fails : Bool} {s : St} {i : Nat}, s.src.rest.length - i = k → SGood fails s →
    i ≤ s.src.avail → LF ∉ s.src.rest.take i → ∃ s', skipLine s i = some s' ∧ s'.src.Wf ∧ s'.src.fails = fails ∧
      s'.src.rest = pSkip (s.src.rest.drop i) ∧ s'.line = s.line + 1 ∧
      (s'.src.ok = true ∨ fails = true ∧ s'.src.ok = false ∧ s'.src.rest = [] ∧ s'.src.avail = 0) := by
  intro k
  induction k using Nat.strongRecOn with
  | _ k ih =>
    intro fails s i hk hg hi hn
    obtain ⟨hw, hok, hf⟩ := hg
    have hw' : s.src.avail ≤ s.src.rest.length := hw
    -- after a character is available at `i`
    have main : ∀ (src : Rd) (j : Nat), src.Wf → src.ok = true → src.fails = fails → j < src.avail →
        src.rest.drop j = s.src.rest.drop i → LF ∉ src.rest.take j → src.rest.length - j = s.src.rest.length - i →
        ∃ s', (if src.rest[j]? = some LF then some ({ s with src := src.advance (j + 1), line := s.line + 1 } : St)
          else skipLine { s with src := src } (j + 1)) = some s' ∧ s'.src.Wf ∧ s'.src.fails = fails ∧
          s'.src.rest = pSkip (s.src.rest.drop i) ∧ s'.line = s.line + 1 ∧
          (s'.src.ok = true ∨ fails = true ∧ s'.src.ok = false ∧ s'.src.rest = [] ∧ s'.src.avail = 0) := by
      intro src j w ok f hj hd hn' hlen
      have w' : src.avail ≤ src.rest.length := w
      obtain ⟨b, hb⟩ : ∃ b, src.rest[j]? = some b := ⟨_, List.getElem?_eq_getElem (by omega)⟩
      have hdrop : src.rest.drop j = b :: src.rest.drop (j + 1) := by
        have hj' : j < src.rest.length := by omega
        rw [List.drop_eq_getElem_cons hj']
        congr 1
        rw [List.getElem?_eq_getElem hj'] at hb; exact Option.some.inj hb
      rw [hb]
      by_cases hlf : b = LF
      · subst hlf
        rw [if_pos rfl]
        refine ⟨_, rfl, wf_advance w, f, ?_, rfl, .inl ok⟩
        rw [← hd, hdrop, pSkip, if_pos rfl]; rfl
      · rw [if_neg (by simpa using hlf)]
        obtain ⟨s', h1, h2, h3, h4, h5, h6⟩ := ih (src.rest.length - (j + 1)) (by omega) (fails := fails)
          (s := { s with src := src }) (i := j + 1) rfl ⟨w, ok, f⟩ (by show j + 1 ≤ src.avail; omega) (by
            show LF ∉ src.rest.take (j + 1)
            rw [List.take_add_one, hb]
            simp only [List.mem_append, not_or, Option.toList_some, List.mem_singleton]
            exact ⟨hn', fun e => hlf e.symm⟩)
        refine ⟨s', h1, h2, h3, ?_, h5, h6⟩
        rw [h4, ← hd, hdrop, pSkip, if_neg hlf]
    rw [skipLine]
    by_cases hia : i = s.src.avail
    · rw [if_pos hia]
      have haw : (s.src.advance s.src.avail).Wf := wf_advance hw
      rcases pull_cases (n := 1) haw hok with ⟨h5, s2, e, er, ef, eo, ew, ea, _⟩ | ⟨h5, s2, e, er, ef, eo, ew, ea⟩
      · rw [e]
        simp only
        have hr2 : s2.rest = s.src.rest.drop i := by rw [er, hia]; rfl
        exact main s2 0 ew eo (by rw [ef]; exact hf) (by omega) (by rw [hr2]; rfl) (by simp)
          (by rw [hr2, List.length_drop]; rfl)
      · rw [e]
        simp only
        have hr2 : s2.rest = s.src.rest.drop i := by rw [er, hia]; rfl
        have h0 : s.src.rest.drop i = [] := by
          apply List.eq_nil_of_length_eq_zero
          rw [← hr2, er]; omega
        refine ⟨_, rfl, ew, by show s2.fails = _; rw [ef]; exact hf, ?_, rfl, ?_⟩
        · show s2.rest = _; rw [hr2, h0]; rfl
        · cases hfl : fails with
          | false => left; show s2.ok = true; rw [eo]; show (!s.src.fails) = true; rw [hf, hfl]; rfl
          | true =>
            right
            refine ⟨rfl, ?_, ?_, ?_⟩
            · show s2.ok = false; rw [eo]; show (!s.src.fails) = false; rw [hf, hfl]; rfl
            · show s2.rest = []; rw [hr2, h0]
            · show s2.avail = 0; rw [ea]; omega
    · rw [if_neg hia]
      simp only
      exact main s.src i hw hok hf (by omega) rfl hn rfl

/-- What `refill` does. -/
theorem refill_cases {o : ROpts} {fails : Bool} {field : Bytes} {src : Rd} {i : Nat} (hw : src.Wf) (hok : src.ok = true)
    (hf : src.fails = fails) (hi : i ≤ src.avail) (hl : field.length ≤ o.maxLen) :
    (refill o field src i = .tooLong ∧ (field ++ src.rest.take i).length > o.maxLen) ∨
    (∃ src', refill o field src i = .ended (field ++ src.rest.take i) src' ∧ src'.rest = [] ∧ src'.Wf ∧ src'.fails = fails ∧
      src'.ok = !fails ∧ src.rest.drop i = [] ∧ (field ++ src.rest.take i).length ≤ o.maxLen) ∨
    (∃ field' src' j b, refill o field src i = .ready field' src' j ∧ src'.Wf ∧ src'.ok = true ∧ src'.fails = fails ∧
      j < src'.avail ∧ field'.length ≤ o.maxLen ∧ field' ++ src'.rest.take j = field ++ src.rest.take i ∧
      src'.rest.drop j = src.rest.drop i ∧ src'.rest[j]? = some b ∧ src.rest.drop i = b :: src'.rest.drop (j + 1)) := by
  have hw' : src.avail ≤ src.rest.length := hw
  have char : ∀ (s : Rd) (j : Nat), s.Wf → j < s.avail → ∃ b, s.rest[j]? = some b ∧ s.rest.drop j = b :: s.rest.drop (j + 1) := by
    intro s j w hj
    have w' : s.avail ≤ s.rest.length := w
    have hj' : j < s.rest.length := by omega
    exact ⟨s.rest[j], List.getElem?_eq_getElem hj', List.drop_eq_getElem_cons hj'⟩
  unfold refill
  by_cases hia : i = src.avail
  · rw [if_pos hia]
    have hlen : (field ++ src.rest.take i).length = field.length + i := by
      rw [List.length_append, List.length_take]; omega
    by_cases hmx : src.avail > o.maxLen - field.length
    · rw [if_pos hmx]
      exact .inl ⟨rfl, by rw [hlen]; omega⟩
    · rw [if_neg hmx]
      right
      have hbuf : src.buffer = src.rest.take i := by rw [hia]; rfl
      have haw : (src.advance src.avail).Wf := wf_advance hw
      rcases pull_cases (n := 1) haw hok with ⟨h5, s2, e, er, ef, eo, ew, ea, _⟩ | ⟨h5, s2, e, er, ef, eo, ew, ea⟩
      · rw [e]
        right
        have hr2 : s2.rest = src.rest.drop i := by rw [er, hia]; rfl
        obtain ⟨b, hb, hd⟩ := char s2 0 ew (by omega)
        refine ⟨_, s2, 0, b, rfl, ew, eo, by rw [ef]; exact hf, by omega, ?_, ?_, by rw [hr2]; rfl, hb, ?_⟩
        · rw [hbuf, hlen]; omega
        · rw [hbuf]; simp
        · rw [← hr2]; exact hd
      · rw [e]
        left
        have hr2 : s2.rest = src.rest.drop i := by rw [er, hia]; rfl
        have h0 : src.rest.drop i = [] := by
          apply List.eq_nil_of_length_eq_zero
          rw [← hr2, er]; omega
        refine ⟨s2, by rw [hbuf], by rw [hr2, h0], ew, by rw [ef]; exact hf, ?_, h0, by rw [hlen]; omega⟩
        rw [eo]; show (!src.fails) = _; rw [hf]
  · rw [if_neg hia]
    right; right
    obtain ⟨b, hb, hd⟩ := char src i hw (by omega)
    exact ⟨field, src, i, b, rfl, hw, hok, hf, by omega, hl, rfl, rfl, hb, hd⟩

/-- `Pull()` after `move_cursor(j + 1)`. -/
theorem pull_after {src : Rd} {fails : Bool} {j : Nat} (hw : src.Wf) (hok : src.ok = true) (hf : src.fails = fails) :
    (∃ src', (src.advance j).pull 1 = (false, src') ∧ src.rest.drop j = [] ∧ src'.rest = [] ∧ src'.Wf ∧ src'.fails = fails ∧
      src'.ok = !fails) ∨
    (∃ src' c r, (src.advance j).pull 1 = (true, src') ∧ src.rest.drop j = c :: r ∧ src'.rest = c :: r ∧ src'.Wf ∧
      src'.ok = true ∧ src'.fails = fails ∧ 1 ≤ src'.avail) := by
  rcases pull_cases (n := 1) (wf_advance (n := j) hw) hok with ⟨h5, s2, e, er, ef, eo, ew, ea, _⟩ | ⟨h5, s2, e, er, ef, eo, ew, ea⟩
  · right
    have : src.rest.drop j ≠ [] := by
      intro h
      have : (src.advance j).rest.length = 0 := by show (src.rest.drop j).length = 0; rw [h]; rfl
      omega
    obtain ⟨c, r, hcr⟩ := List.exists_cons_of_ne_nil this
    exact ⟨s2, c, r, e, hcr, by rw [er]; exact hcr, ew, eo, by rw [ef]; exact hf, ea⟩
  · left
    have h0 : src.rest.drop j = [] := List.eq_nil_of_length_eq_zero (by
      have : (src.advance j).rest = src.rest.drop j := rfl
      rw [this] at h5; omega)
    exact ⟨s2, e, h0, by rw [er]; exact h0, ew, by rw [ef]; exact hf, by rw [eo]; show (!src.fails) = _; rw [hf]⟩

theorem pullErr_eq {src : Rd} {fails : Bool} (h : src.ok = !fails) (e : Err) : pullErr src e = endErr fails e := by
  unfold pullErr endErr; rw [h]; cases fails <;> rfl

/-- `ReadQuoted()` computes `pQuoted`. -/
theorem readQuoted_good {o : ROpts} : ∀ (k : Nat) {fails : Bool} {field : Bytes} {s : St} {i : Nat},
    s.src.rest.length - i = k → SGood fails s → i ≤ s.src.avail → field.length ≤ o.maxLen →
    ∃ x, readQuoted o field s i = some x ∧
      match x with
      | .error e => pQuoted o fails (field ++ s.src.rest.take i) (s.src.rest.drop i) s.line = .error e
      | .ok (f, s') => pQuoted o fails (field ++ s.src.rest.take i) (s.src.rest.drop i) s.line = .ok (f, s'.src.rest, s'.line) ∧
          SGood fails s' ∧ s'.last = s.last := by
  intro k
  induction k using Nat.strongRecOn with
  | _ k ih =>
    intro fails field s i hk hg hi hl
    obtain ⟨hw, hok, hf⟩ := hg
    rw [readQuoted]
    rcases refill_cases (o := o) hw hok hf hi hl with ⟨e, hlen⟩ | ⟨src', e, er, ew, ef, eo, hd, hlen⟩ |
        ⟨field', src, j, b, e, w, ok, f, hj, hl', hacc, hdr, hb, hd⟩
    · rw [e]
      exact ⟨_, rfl, pQuoted_tooLong hlen⟩
    · rw [e]
      refine ⟨_, rfl, ?_⟩
      simp only
      rw [hd, pQuoted.eq_def, if_neg (by omega), pullErr_eq eo]
    · rw [e]
      simp only
      rw [hb]
      simp only
      rw [← hacc, hd]
      have hw2 : src.avail ≤ src.rest.length := w
      have hlenj : (field' ++ src.rest.take j).length = field'.length + j := by
        rw [List.length_append, List.length_take]; omega
      have hmeas : src.rest.length - j = s.src.rest.length - i := by
        have := congrArg List.length hdr
        simpa [List.length_drop] using this
      -- an ordinary character
      have ord : ∀ (line : Nat), ∃ x, readQuoted o field' { s with src := src, line := line } (j + 1) = some x ∧
          match x with
          | .error e => pQuoted o fails ((field' ++ src.rest.take j) ++ [b]) (src.rest.drop (j + 1)) line = .error e
          | .ok (f, s') => pQuoted o fails ((field' ++ src.rest.take j) ++ [b]) (src.rest.drop (j + 1)) line =
              .ok (f, s'.src.rest, s'.line) ∧ SGood fails s' ∧ s'.last = s.last := by
        intro line
        obtain ⟨x, h1, h2⟩ := ih (src.rest.length - (j + 1)) (by omega) (fails := fails) (field := field')
          (s := { s with src := src, line := line }) (i := j + 1) rfl ⟨w, ok, f⟩ (by show j + 1 ≤ src.avail; omega) hl'
        refine ⟨x, h1, ?_⟩
        have : field' ++ src.rest.take (j + 1) = (field' ++ src.rest.take j) ++ [b] := by
          rw [List.take_add_one, hb]; simp
        simp only [this] at h2
        exact h2
      -- too long
      have long : (field' ++ src.rest.take j).length > o.maxLen → ∀ (d : Bytes) (line : Nat),
          pQuoted o fails (field' ++ src.rest.take j) d line = .error .maxLen := fun h _ _ => pQuoted_tooLong h
      by_cases hmx : (field' ++ src.rest.take j).length > o.maxLen
      · have hmx' : j > o.maxLen - field'.length := by omega
        have ord' : ∀ (line : Nat), ∃ x, readQuoted o field' { s with src := src, line := line } (j + 1) = some x ∧
            match x with
            | .error e => pQuoted o fails (field' ++ src.rest.take j) (b :: src.rest.drop (j + 1)) s.line = .error e
            | .ok (f, s') => pQuoted o fails (field' ++ src.rest.take j) (b :: src.rest.drop (j + 1)) s.line =
                .ok (f, s'.src.rest, s'.line) ∧ SGood fails s' ∧ s'.last = s.last := by
          intro line
          obtain ⟨x, h1, h2⟩ := ord line
          refine ⟨x, h1, ?_⟩
          rw [pQuoted_tooLong hmx]
          have hlong : pQuoted o fails ((field' ++ src.rest.take j) ++ [b]) (src.rest.drop (j + 1)) line = .error .maxLen :=
            pQuoted_tooLong (by rw [List.length_append]; omega)
          cases x with
          | error e => simp only at h2 ⊢; rw [hlong] at h2; exact h2
          | ok p => obtain ⟨p1, p2⟩ := p; simp only at h2; rw [hlong] at h2; cases h2.1
        cases hc : cls o b <;> simp only
        · exact ord' s.line
        · exact ord' (s.line + 1)
        · exact ord' s.line
        · exact ord' s.line
        · exact ord' s.line
        · rw [if_pos hmx']; exact ⟨_, rfl, long hmx _ _⟩
        · rw [if_pos hmx']; exact ⟨_, rfl, long hmx _ _⟩
      · have hmx' : ¬ j > o.maxLen - field'.length := by omega
        have hp : pQuoted o fails (field' ++ src.rest.take j) (b :: src.rest.drop (j + 1)) s.line =
            (if cls o b = .quote then
              match src.rest.drop (j + 1) with
              | [] => if fails then .error .source else .ok (field' ++ src.rest.take j, [], s.line)
              | c :: r' => if c = quoteChar o then pQuoted o fails ((field' ++ src.rest.take j) ++ [c]) r' s.line
                  else .ok (field' ++ src.rest.take j, c :: r', s.line)
            else if cls o b = .escape then
              match src.rest.drop (j + 1) with
              | [] => .error (endErr fails .afterEscape)
              | c :: r' => pQuoted o fails ((field' ++ src.rest.take j) ++ [c]) r' s.line
            else pQuoted o fails ((field' ++ src.rest.take j) ++ [b]) (src.rest.drop (j + 1))
              (if cls o b = .lf then s.line + 1 else s.line)) := by
          rw [pQuoted.eq_def, if_neg hmx]
        rw [hp]
        -- one character after a quote or an escape
        have one : ∀ (src' : Rd) (c : UInt8) (r : Bytes), src.rest.drop (j + 1) = c :: r → src'.rest = c :: r → src'.Wf →
            src'.ok = true → src'.fails = fails → 1 ≤ src'.avail →
            ∃ x, readQuoted o (field' ++ src.rest.take j) { s with src := src' } 1 = some x ∧
            match x with
            | .error e => pQuoted o fails ((field' ++ src.rest.take j) ++ [c]) r s.line = .error e
            | .ok (f, s') => pQuoted o fails ((field' ++ src.rest.take j) ++ [c]) r s.line =
                .ok (f, s'.src.rest, s'.line) ∧ SGood fails s' ∧ s'.last = s.last := by
          intro src' c r hcr er ew eo ef ea
          have hln : src'.rest.length + (j + 1) ≤ src.rest.length := by
            have : src'.rest.length = src.rest.length - (j + 1) := by rw [er, ← hcr, List.length_drop]
            omega
          obtain ⟨x, h1, h2⟩ := ih (src'.rest.length - 1) (by rw [← hk]; omega) (fails := fails)
            (field := field' ++ src.rest.take j) (s := { s with src := src' }) (i := 1) rfl ⟨ew, eo, ef⟩
            (by show 1 ≤ src'.avail; omega) (by omega)
          refine ⟨x, h1, ?_⟩
          have e1 : src'.rest.take 1 = [c] := by rw [er]; rfl
          have e2 : src'.rest.drop 1 = r := by rw [er]; rfl
          simp only [e1, e2] at h2
          exact h2
        cases hc : cls o b <;> simp only [reduceCtorEq, if_false, if_true]
        · exact ord s.line
        · exact ord (s.line + 1)
        · exact ord s.line
        · exact ord s.line
        · exact ord s.line
        · rw [if_neg hmx']
          rcases pull_after (j := j + 1) w ok f with ⟨src', e, h0, er, ew, ef, eo⟩ | ⟨src', c, r, e, hcr, er, ew, eo, ef, ea⟩
          · rw [e, h0]
            simp only
            cases hfl : fails with
            | false =>
              have eo : src'.ok = true := by rw [eo, hfl]; rfl
              rw [if_pos eo]
              refine ⟨_, rfl, ?_, ⟨ew, eo, by rw [← hfl]; exact ef⟩, rfl⟩
              simp only [er]; rfl
            | true =>
              rw [if_neg (by rw [eo, hfl]; simp)]
              exact ⟨_, rfl, rfl⟩
          · rw [e, hcr]
            simp only
            by_cases hq : c = quoteChar o
            · rw [if_pos (by rw [er, hq]; rfl), if_pos hq]
              exact one src' c r hcr er ew eo ef ea
            · rw [if_neg (by rw [er]; simpa using hq), if_neg hq]
              refine ⟨_, rfl, ?_, ⟨ew, eo, ef⟩, rfl⟩
              simp only [er]
        · rw [if_neg hmx']
          rcases pull_after (j := j + 1) w ok f with ⟨src', e, h0, er, ew, ef, eo⟩ | ⟨src', c, r, e, hcr, er, ew, eo, ef, ea⟩
          · rw [e, h0]
            refine ⟨_, rfl, ?_⟩
            simp only
            rw [pullErr_eq eo]
          · rw [e, hcr]
            exact one src' c r hcr er ew eo ef ea

/-- A step of the code gives the result `x` of the parser, now or after going on. -/
def StepGood (o : ROpts) (fails : Bool) (m : Nat) (y : Step) (x : Out) : Prop :=
  match y with
  | .done r s => RGood fails r s x
  | .more fields field s i => x = pRun o fails fields (field ++ s.src.rest.take i) (s.src.rest.drop i) s.line s.last ∧
      SGood fails s ∧ i ≤ s.src.avail ∧ field.length ≤ o.maxLen ∧ s.src.rest.length - i ≤ m

theorem StepGood.mono {o : ROpts} {fails : Bool} {m m' : Nat} {y : Step} {x : Out} (h : StepGood o fails m y x) (hm : m ≤ m') :
    StepGood o fails m' y x := by
  cases y with
  | done r s => exact h
  | more f a s i => exact ⟨h.1, h.2.1, h.2.2.1, h.2.2.2.1, Nat.le_trans h.2.2.2.2 hm⟩

theorem fail_good {o : ROpts} {fails : Bool} {m : Nat} {e : Err} {s : St} : StepGood o fails m (.done (.fail e) s) (failOut e) :=
  ⟨rfl, fun h => absurd rfl (h e)⟩

theorem nextField_good {o : ROpts} {fails : Bool} {fields : List Bytes} {s : St} (hg : SGood fails s) :
    StepGood o fails s.src.rest.length (nextField o fields s)
      ((pNextField o fields s.src.rest s.line s.last).go o fails) := by
  unfold nextField pNextField
  split
  · exact fail_good
  · exact ⟨by simp [PStep.go], hg, Nat.zero_le _, Nat.zero_le _, by omega⟩

theorem nextRecord_good {o : ROpts} {fails : Bool} {s : St} (hw : s.src.Wf) (hf : s.src.fails = fails)
    (hst : o.standalone = true → fails = false)
    (hok : s.src.ok = true ∨ fails = true ∧ s.src.ok = false ∧ s.src.rest = [] ∧ s.src.avail = 0) :
    StepGood o fails s.src.rest.length (nextRecord o s) ((pNextRecord o fails s.src.rest s.line).go o fails) := by
  unfold nextRecord pNextRecord
  cases hs : o.standalone with
  | true =>
    simp only [if_true, Bool.true_eq_false, false_and, if_false]
    rcases hok with hok | ⟨h, _⟩
    · exact nextField_good (s := { s with last := s.line }) ⟨hw, hok, hf⟩
    · rw [hst hs] at h; cases h
  | false =>
    simp only [Bool.false_eq_true, if_false, true_and]
    rcases hok with hok | ⟨h1, h2, h3, h4⟩
    · rcases pull_cases (n := 1) hw hok with ⟨h5, s2, e, er, ef, eo, ew, ea, _⟩ | ⟨h5, s2, e, er, ef, eo, ew, ea⟩
      · rw [e]
        have hne : s.src.rest ≠ [] := by intro h; rw [h] at h5; simp at h5
        rw [if_neg hne]
        simp only
        have := nextField_good (o := o) (fails := fails) (fields := []) (s := { src := s2, line := s.line, last := s.line })
          ⟨ew, eo, by rw [← hf]; exact ef⟩
        rw [show ({ src := s2, line := s.line, last := s.line } : St).src.rest = s.src.rest from er] at this
        exact this
      · rw [e]
        have hnil : s.src.rest = [] := List.eq_nil_of_length_eq_zero (by omega)
        rw [if_pos hnil]
        simp only
        have ho : s2.ok = !fails := by rw [eo, hf]
        cases hfl : fails with
        | false =>
          have ho : s2.ok = true := by rw [ho, hfl]; rfl
          rw [if_pos ho]
          refine ⟨?_, fun _ => ⟨ew, ho, by rw [← hfl, ← hf]; exact ef⟩⟩
          simp [obs, PStep.go, er, hnil]
        | true =>
          rw [if_neg (by rw [ho, hfl]; simp)]
          exact fail_good
    · have hp : s.src.pull 1 = (false, s.src) := by
        unfold Rd.pull
        rw [if_neg (by omega), if_pos h2]
      rw [hp, if_pos h3, h1]
      simp only [h2, Bool.false_eq_true, if_false, if_true]
      exact fail_good

theorem endLine_good {o : ROpts} {fails : Bool} {fields : List Bytes} {field : Bytes} {s : St} (hg : SGood fails s)
    (hst : o.standalone = true → fails = false) :
    StepGood o fails s.src.rest.length (endLine o fields field s)
      ((pEndLine o fails fields field s.src.rest s.line s.last).go o fails) := by
  unfold endLine pEndLine
  simp only
  split
  · exact nextRecord_good (s := { s with line := s.line + 1 }) hg.wf hg.fails hst (.inl hg.ok)
  · split
    · exact fail_good
    · exact ⟨rfl, fun _ => ⟨hg.wf, hg.ok, hg.fails⟩⟩

theorem endLineQuoted_good {o : ROpts} {fails : Bool} {fields : List Bytes} {field : Bytes} {s : St} (hg : SGood fails s) :
    StepGood o fails s.src.rest.length (endLineQuoted o fields field s)
      ((pEndLineQuoted o fields field s.src.rest s.line s.last).go o fails) := by
  unfold endLineQuoted pEndLineQuoted
  simp only
  split
  · exact fail_good
  · exact ⟨rfl, fun _ => ⟨hg.wf, hg.ok, hg.fails⟩⟩

theorem pull_now {src : Rd} {fails : Bool} (hw : src.Wf) (hok : src.ok = true) (hf : src.fails = fails) :
    (∃ src', src.pull 1 = (false, src') ∧ src.rest = [] ∧ src'.rest = [] ∧ src'.Wf ∧ src'.fails = fails ∧
      src'.ok = !fails) ∨
    (∃ src' c r, src.pull 1 = (true, src') ∧ src.rest = c :: r ∧ src'.rest = c :: r ∧ src'.Wf ∧
      src'.ok = true ∧ src'.fails = fails ∧ 1 ≤ src'.avail) :=
  pull_after (j := 0) hw hok hf

theorem afterCr_good {o : ROpts} {fails : Bool} {s : St} (hg : SGood fails s) {k : St → Step} {p : Bytes → PStep}
    (hk : ∀ s', SGood fails s' → s'.line = s.line → s'.last = s.last →
      StepGood o fails s'.src.rest.length (k s') ((p s'.src.rest).go o fails)) :
    StepGood o fails s.src.rest.length (afterCr s k) ((pAfterCr fails s.src.rest p).go o fails) := by
  unfold afterCr pAfterCr
  rcases pull_now hg.wf hg.ok hg.fails with ⟨src', e, h0, er, ew, ef, eo⟩ | ⟨src', c, r, e, hcr, er, ew, eo, ef, ea⟩
  · rw [e, h0, ← pullErr_eq eo]
    exact fail_good
  · rw [e, hcr]
    simp only
    by_cases hc : c = LF
    · subst hc
      rw [if_neg (by rw [er]; simp), if_neg (by simp)]
      have hr : (src'.advance 1).rest = r := by show src'.rest.drop 1 = r; rw [er]; rfl
      have := hk { s with src := src'.advance 1 } ⟨wf_advance ew, eo, ef⟩ rfl rfl
      rw [show ({ s with src := src'.advance 1 } : St).src.rest = r from hr] at this
      exact this.mono (by simp)
    · rw [if_pos (by rw [er]; simpa using hc), if_pos hc]
      exact fail_good

theorem afterQuoted_good {o : ROpts} {fails : Bool} {fields : List Bytes} {field : Bytes} {s : St} (hg : SGood fails s)
    (hq : ∀ b r, s.src.rest = b :: r → cls o b ≠ .quote) :
    ∃ y, afterQuoted o fields field s = some y ∧ StepGood o fails s.src.rest.length y
      ((pAfterQuoted o fails fields field s.src.rest s.line s.last).go o fails) := by
  unfold afterQuoted pAfterQuoted
  rcases pull_now hg.wf hg.ok hg.fails with ⟨src', e, h0, er, ew, ef, eo⟩ | ⟨src', c, r, e, hcr, er, ew, eo, ef, ea⟩
  · rw [e, h0]
    simp only
    cases hfl : fails with
    | false =>
      have eo : src'.ok = true := by rw [eo, hfl]; rfl
      rw [if_pos eo]
      refine ⟨_, rfl, ?_, fun _ => ⟨ew, eo, by rw [← hfl]; exact ef⟩⟩
      simp [obs, PStep.go, er]
    | true =>
      rw [if_neg (by rw [eo, hfl]; simp)]
      exact ⟨_, rfl, fail_good⟩
  · have hcq := hq c r hcr
    have hb : src'.rest[0]? = some c := by rw [er]; rfl
    rw [e, hcr]
    simp only
    rw [hb]
    simp only
    have hr : (src'.advance 1).rest = r := by show src'.rest.drop 1 = r; rw [er]; rfl
    have hg' : SGood fails { s with src := src'.advance 1 } := ⟨wf_advance ew, eo, ef⟩
    have hle : r.length ≤ (c :: r).length := by simp
    cases hc : cls o c <;> simp only
    · exact ⟨_, rfl, fail_good⟩
    · refine ⟨_, rfl, ?_⟩
      have := endLineQuoted_good (o := o) (fields := fields) (field := field) hg'
      rw [show ({ s with src := src'.advance 1 } : St).src.rest = r from hr] at this
      exact this.mono hle
    · refine ⟨_, rfl, ?_⟩
      have := afterCr_good (o := o) hg' (k := endLineQuoted o fields field)
        (p := fun r => pEndLineQuoted o fields field r s.line s.last) (by
          intro s' g h1 h2
          have := endLineQuoted_good (o := o) (fields := fields) (field := field) g
          rw [h1, h2] at this
          exact this)
      rw [show ({ s with src := src'.advance 1 } : St).src.rest = r from hr] at this
      exact this.mono hle
    · exact ⟨_, rfl, fail_good⟩
    · refine ⟨_, rfl, ?_⟩
      have := nextField_good (o := o) (fields := fields ++ [field]) hg'
      rw [show ({ s with src := src'.advance 1 } : St).src.rest = r from hr] at this
      exact this.mono hle
    · exact absurd hc hcq
    · exact ⟨_, rfl, fail_good⟩

theorem cls_quote {o : ROpts} {b : UInt8} (h : cls o b = .quote) : b = quoteChar o := by
  unfold cls at h
  split at h
  · cases h
  · split at h
    · rename_i hq; unfold quoteChar; rw [hq]; rfl
    · repeat (first | (split at h; (try cases h)) | cases h)

/-- After a quoted field there is no quote. -/
theorem pQuoted_rest {o : ROpts} {fails : Bool} {acc data : Bytes} {line : Nat} {f r : Bytes} {l : Nat}
    (h : pQuoted o fails acc data line = .ok (f, r, l)) : ∀ b r', r = b :: r' → cls o b ≠ .quote := by
  generalize hk : data.length = k
  induction k using Nat.strongRecOn generalizing data acc line with
  | _ k ih =>
    subst hk
    rw [pQuoted.eq_def] at h
    split at h
    · cases h
    · cases data with
      | nil => cases h
      | cons b r0 =>
        simp only at h
        split at h
        · cases r0 with
          | nil => simp only at h; split at h <;> cases h; intro _ _ h; cases h
          | cons c r1 =>
            simp only at h
            split at h
            · exact ih r1.length (by simp; omega) h rfl
            · rename_i hc
              cases h
              intro b' r' h hq
              cases h
              exact hc (cls_quote hq)
        · split at h
          · cases r0 with
            | nil => cases h
            | cons c r1 => exact ih r1.length (by simp; omega) h rfl
          · exact ih r0.length (by simp) h rfl

theorem pStep_eq {o : ROpts} {fails : Bool} {fields : List Bytes} {acc : Bytes} {b : UInt8} {r : Bytes} {line last : Nat}
    (h : ¬ acc.length > o.maxLen) : pStep o fails fields acc (b :: r) line last =
      match cls o b with
      | .other => .more fields (acc ++ [b]) r line last
      | .comment =>
        if fields.isEmpty && acc.isEmpty then pNextRecord o fails (pSkip r) (line + 1)
        else .more fields (acc ++ [b]) r line last
      | .cr => pAfterCr fails r fun r => pEndLine o fails fields acc r line last
      | .lf => pEndLine o fails fields acc r line last
      | .sep => pNextField o (fields ++ [acc]) r line last
      | .quote =>
        if acc.isEmpty then
          match pQuoted o fails [] r line with
          | .error e => .done (failOut e)
          | .ok (f, r, line) => pAfterQuoted o fails fields f r line last
        else .done (failOut .beforeQuote)
      | .escape =>
        match r with
        | [] => .done (failOut (endErr fails .afterEscape))
        | c :: r => .more fields (acc ++ [c]) r line last := by
  rw [pStep.eq_def, if_neg h]
  rfl

theorem step_good {o : ROpts} {fails : Bool} {fields : List Bytes} {field : Bytes} {s : St} {i : Nat} (hg : SGood fails s)
    (hst : o.standalone = true → fails = false) (hi : i ≤ s.src.avail) (hl : field.length ≤ o.maxLen) :
    ∃ y, step o fields field s i = some y ∧ StepGood o fails (s.src.rest.length - i - 1) y
      (pRun o fails fields (field ++ s.src.rest.take i) (s.src.rest.drop i) s.line s.last) := by
  obtain ⟨hw, hok, hf⟩ := hg
  unfold step
  rcases refill_cases (o := o) hw hok hf hi hl with ⟨e, hlen⟩ | ⟨src', e, er, ew, ef, eo, hd, hlen⟩ |
      ⟨field', src, j, b, e, w, ok, f, hj, hl', hacc, hdr, hb, hd⟩
  · rw [e, pRun_tooLong hlen]
    exact ⟨_, rfl, fail_good⟩
  · rw [e, hd, pRun_eq, pStep.eq_def, if_neg (by omega)]
    simp only
    cases hfl : fails with
    | false =>
      have eo : src'.ok = true := by rw [eo, hfl]; rfl
      rw [if_pos eo]
      refine ⟨_, rfl, ?_, fun _ => ⟨ew, eo, by rw [← hfl]; exact ef⟩⟩
      simp [obs, PStep.go, er]
    | true =>
      rw [if_neg (by rw [eo, hfl]; simp)]
      exact ⟨_, rfl, fail_good⟩
  · rw [e]
    simp only
    rw [hb, ← hacc, hd]
    simp only
    have hw2 : src.avail ≤ src.rest.length := w
    have hlenj : (field' ++ src.rest.take j).length = field'.length + j := by
      rw [List.length_append, List.length_take]; omega
    have hmeas : src.rest.length - j = s.src.rest.length - i := by
      have := congrArg List.length hdr
      simpa [List.length_drop] using this
    have hdl : (src.rest.drop (j + 1)).length = src.rest.length - (j + 1) := List.length_drop
    have hm1 : (src.rest.drop (j + 1)).length ≤ s.src.rest.length - i - 1 := by rw [hdl]; omega
    have htk : field' ++ src.rest.take (j + 1) = (field' ++ src.rest.take j) ++ [b] := by
      rw [List.take_add_one, hb]; simp
    have ord : StepGood o fails (s.src.rest.length - i - 1) (.more fields field' { s with src := src } (j + 1))
        (pRun o fails fields ((field' ++ src.rest.take j) ++ [b]) (src.rest.drop (j + 1)) s.line s.last) := by
      refine ⟨by rw [← htk], ⟨w, ok, f⟩, by show j + 1 ≤ src.avail; omega, hl', ?_⟩
      show src.rest.length - (j + 1) ≤ _; omega
    by_cases hmx : (field' ++ src.rest.take j).length > o.maxLen
    · rw [pRun_tooLong hmx]
      rw [pRun_tooLong (by rw [List.length_append]; omega)] at ord
      by_cases h1 : cls o b = .other
      · rw [if_pos h1]; exact ⟨_, rfl, ord⟩
      · rw [if_neg h1]
        by_cases h2 : cls o b = .comment
        · rw [if_pos h2, if_neg]
          · exact ⟨_, rfl, ord⟩
          · intro h
            simp only [Bool.and_eq_true, List.isEmpty_iff, beq_iff_eq] at h
            rw [hlenj, h.1.2, h.2] at hmx
            simp at hmx
        · rw [if_neg h2, if_pos (by omega)]
          exact ⟨_, rfl, fail_good⟩
    · rw [pRun_eq, pStep_eq hmx]
      by_cases h1 : cls o b = .other
      · rw [if_pos h1, h1]; exact ⟨_, rfl, ord⟩
      · rw [if_neg h1]
        by_cases h2 : cls o b = .comment
        · rw [if_pos h2, h2]
          simp only
          have hiff : (fields.isEmpty && field'.isEmpty && j == 0) = (fields.isEmpty && (field' ++ src.rest.take j).isEmpty) := by
            rw [Bool.and_assoc]
            congr 1
            have : (field' ++ src.rest.take j).isEmpty = decide (field'.length + j = 0) := by
              rw [← hlenj]; cases hx : field' ++ src.rest.take j <;> simp
            rw [this]
            cases field' with
            | nil => cases j <;> simp
            | cons a t => simp
          rw [hiff]
          by_cases hc : (fields.isEmpty && (field' ++ src.rest.take j).isEmpty) = true
          · rw [if_pos hc, if_pos hc]
            have hj0 : j = 0 := by
              rw [← hiff] at hc
              simp only [Bool.and_eq_true, beq_iff_eq] at hc
              exact hc.2
            subst hj0
            obtain ⟨s', e1, e2, e3, e4, e5, e6⟩ := skipLine_good _ (fails := fails) (s := { s with src := src.advance 1 })
              (i := 0) rfl ⟨wf_advance w, ok, f⟩ (Nat.zero_le _) (by simp)
            rw [e1]
            refine ⟨_, rfl, ?_⟩
            have := nextRecord_good (o := o) e2 e3 hst e6
            rw [e4, e5] at this
            exact this.mono (Nat.le_trans (pSkip_length _) hm1)
          · rw [if_neg hc, if_neg hc]
            exact ⟨_, rfl, ord⟩
        · rw [if_neg h2, if_neg (by omega)]
          have hg' : SGood fails { s with src := src.advance (j + 1) } := ⟨wf_advance w, ok, f⟩
          have hr' : ({ s with src := src.advance (j + 1) } : St).src.rest = src.rest.drop (j + 1) := rfl
          cases hc : cls o b <;> simp only
          · exact absurd hc h1
          · refine ⟨_, rfl, ?_⟩
            exact (endLine_good (o := o) (fields := fields) (field := field' ++ src.rest.take j) hg' hst).mono hm1
          · refine ⟨_, rfl, ?_⟩
            refine (afterCr_good (o := o) hg' (k := endLine o fields (field' ++ src.rest.take j))
              (p := fun r => pEndLine o fails fields (field' ++ src.rest.take j) r s.line s.last) ?_).mono hm1
            intro s' g h1 h2
            have := endLine_good (o := o) (fields := fields) (field := field' ++ src.rest.take j) g hst
            rw [h1, h2] at this
            exact this
          · exact absurd hc h2
          · exact ⟨_, rfl, (nextField_good (o := o) (fields := fields ++ [field' ++ src.rest.take j]) hg').mono hm1⟩
          · by_cases hem : (field' ++ src.rest.take j).isEmpty = true
            · rw [if_pos hem, if_pos hem]
              obtain ⟨x, e1, e2⟩ := readQuoted_good (o := o) _ (field := []) (i := 0) rfl hg' (Nat.zero_le _) (Nat.zero_le _)
              rw [e1]
              have e3 : pQuoted o fails ([] ++ (src.rest.drop (j + 1)).take 0) ((src.rest.drop (j + 1)).drop 0) s.line =
                pQuoted o fails [] (src.rest.drop (j + 1)) s.line := rfl
              cases x with
              | error e =>
                have e2 : pQuoted o fails [] (src.rest.drop (j + 1)) s.line = .error e := e2
                rw [e2]
                exact ⟨_, rfl, fail_good⟩
              | ok p =>
                obtain ⟨fl, s'⟩ := p
                have e2 : pQuoted o fails [] (src.rest.drop (j + 1)) s.line = .ok (fl, s'.src.rest, s'.line) ∧
                  SGood fails s' ∧ s'.last = s.last := e2
                obtain ⟨e2, e4, e5⟩ := e2
                rw [e2]
                simp only
                obtain ⟨y, h3, h4⟩ := afterQuoted_good (o := o) (fields := fields) (field := fl) e4 (pQuoted_rest e2)
                refine ⟨y, h3, ?_⟩
                rw [e5] at h4
                exact h4.mono (Nat.le_trans (Nat.le_of_lt (pQuoted_length e2)) hm1)
            · rw [if_neg hem, if_neg hem]
              exact ⟨_, rfl, fail_good⟩
          · rcases pull_after (j := j + 1) w ok f with ⟨src', e, h0, er, ew, ef, eo⟩ | ⟨src', c, r, e, hcr, er, ew, eo, ef, ea⟩
            · rw [e, h0, ← pullErr_eq eo]
              exact ⟨_, rfl, fail_good⟩
            · rw [e, hcr]
              refine ⟨_, rfl, ?_, ⟨ew, eo, ef⟩, by show 1 ≤ src'.avail; omega, by omega, ?_⟩
              · have e1 : src'.rest.take 1 = [c] := by rw [er]; rfl
                have e2 : src'.rest.drop 1 = r := by rw [er]; rfl
                show _ = pRun o fails fields ((field' ++ src.rest.take j) ++ src'.rest.take 1) (src'.rest.drop 1) s.line s.last
                rw [e1, e2]; rfl
              · show src'.rest.length - 1 ≤ _
                rw [er, ← hcr]; omega

theorem run_good {o : ROpts} {fails : Bool} (hst : o.standalone = true → fails = false) : ∀ (k : Nat) {fields : List Bytes}
    {field : Bytes} {s : St} {i : Nat}, s.src.rest.length - i = k → SGood fails s → i ≤ s.src.avail → field.length ≤ o.maxLen →
    ∃ r s', run o fields field s i = some (r, s') ∧
      RGood fails r s' (pRun o fails fields (field ++ s.src.rest.take i) (s.src.rest.drop i) s.line s.last) := by
  intro k
  induction k using Nat.strongRecOn with
  | _ k ih =>
    intro fields field s i hk hg hi hl
    obtain ⟨y, h1, h2⟩ := step_good (fields := fields) hg hst hi hl
    rw [run, h1]
    cases y with
    | done r s' => exact ⟨r, s', rfl, h2⟩
    | more f a s' i' =>
      obtain ⟨h3, h4, h5, h6, h7⟩ := h2
      by_cases hz : s.src.rest.length - i = 0
      · -- the end of data has been reached: the step returns
        exfalso
        have hd : s.src.rest.drop i = [] := List.eq_nil_of_length_eq_zero (by rw [List.length_drop]; exact hz)
        unfold step at h1
        rcases refill_cases (o := o) hg.wf hg.ok hg.fails hi hl with ⟨e, _⟩ | ⟨src', e, _⟩ |
          ⟨field', src, j, b, e, _, _, _, _, _, _, _, _, hd'⟩
        · rw [e] at h1; cases h1
        · rw [e] at h1; simp only at h1; split at h1 <;> cases h1
        · rw [hd] at hd'; cases hd'
      · obtain ⟨r, s2, h8, h9⟩ := ih (s'.src.rest.length - i') (by omega) (fields := f) (field := a) rfl h4 h5 h6
        exact ⟨r, s2, h8, by rw [h3]; exact h9⟩

/-- **`ReadRecord()` computes `pRecord`**, for every fragmentation. -/
theorem readRecord_good {o : ROpts} {fails : Bool} {s : St} (hst : o.standalone = true → fails = false) (hg : SGood fails s) :
    ∃ r s', readRecord o s = some (r, s') ∧ RGood fails r s' (pRecord o fails s.src.rest s.line) := by
  unfold readRecord pRecord
  have h := nextRecord_good (o := o) hg.wf hg.fails hst (.inl hg.ok)
  cases hn : nextRecord o s with
  | done r s' => rw [hn] at h; exact ⟨r, s', rfl, h⟩
  | more f a s' i =>
    rw [hn] at h
    obtain ⟨h3, h4, h5, h6, h7⟩ := h
    obtain ⟨r, s2, h8, h9⟩ := run_good hst _ (fields := f) (field := a) rfl h4 h5 h6
    exact ⟨r, s2, h8, by rw [h3]; exact h9⟩

end Csv
end Riegeli
