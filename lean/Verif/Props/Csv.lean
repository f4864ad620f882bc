import Verif.CsvWrite
import Verif.CsvNext
import Verif.Props.Lines
/-!
# C28: CSV

`CsvSpec.lean` has the specification: the grammar of records (`RecordAt`), and `NoRecords`. The results here hold for every state of the
source: every content, every cutting of it into buffers (`frag`), whether it ends or fails (`fails`).
-/
namespace Riegeli.Props
open Riegeli Riegeli.Lines Riegeli.Csv

/-- A source which has not failed yet. -/
def Usable (s : St) : Prop := s.src.Wf ∧ s.src.ok = true

theorem usable_good {s : St} (h : Usable s) : SGood s.src.fails s := ⟨h.1, h.2, rfl⟩

/-- **C28** (records). `ReadRecord()` returns a record iff the remaining data has one by the grammar, within the limits of the
options (with its newline if the source fails afterwards); then the reader is left exactly after the newline, and can go on. -/
theorem C28_read_record (o : ROpts) (hv : o.valid = true) (hst : o.standalone = false) (s : St) (hu : Usable s)
    (fields : List Bytes) (rest : Bytes) :
    (∃ s', readRecord o s = some (.record fields, s') ∧ s'.src.rest = rest ∧ Usable s' ∧ s'.src.fails = s.src.fails) ↔
    ∃ skipped enc newline, RecordAt o s.src.rest fields skipped enc newline rest ∧
      fields.length ≤ o.maxFields ∧ (∀ f ∈ fields, f.length ≤ o.maxLen) ∧ (newline = [] → s.src.fails = false) := by
  obtain ⟨r, s1, h1, h2, h3⟩ := readRecord_good (o := o) (fun h => by rw [hst] at h; cases h) (usable_good hu)
  constructor
  · rintro ⟨s', e, hr, _, _⟩
    rw [e] at h1
    cases h1
    rw [← hr]
    obtain ⟨sk, enc, nl, a, b, c⟩ := pRecord_sound hv hst h2.symm
    exact ⟨sk, enc, nl, a, b.1, b.2, c⟩
  · rintro ⟨sk, enc, nl, a, b1, b2, c⟩
    obtain ⟨l, h4, _⟩ := pRecord_complete hv hst a c ⟨b1, b2⟩ s.line
    rw [h4] at h2
    cases r with
    | fail e => cases h2
    | eof => cases h2
    | record fs =>
      simp only [obs, Prod.mk.injEq, Ret.record.injEq] at h2
      have hg := h3 (by intro e h; cases h)
      rw [← h2.1]
      exact ⟨s1, h1, h2.2.1, ⟨hg.wf, hg.ok⟩, hg.fails⟩

/-- **C28** (end of records). `ReadRecord()` returns `false` without a failure iff the source did not fail and all the remaining data are
comments and empty lines to be skipped. -/
theorem C28_end (o : ROpts) (hv : o.valid = true) (hst : o.standalone = false) (hmf : 1 ≤ o.maxFields) (s : St) (hu : Usable s) :
    (∃ s', readRecord o s = some (.eof, s')) ↔ NoRecords o s.src.rest ∧ s.src.fails = false := by
  obtain ⟨r, s1, h1, h2, h3⟩ := readRecord_good (o := o) (fun h => by rw [hst] at h; cases h) (usable_good hu)
  constructor
  · rintro ⟨s', e⟩
    rw [e] at h1
    cases h1
    obtain ⟨a, b, _⟩ := pRecord_eof_sound hv hst h2.symm
    exact ⟨a, b⟩
  · rintro ⟨a, b⟩
    obtain ⟨l, h4⟩ := pRecord_eof (fails := s.src.fails) hv b hst hmf a s.line
    rw [h4] at h2
    cases r with
    | fail e => cases h2
    | record fs => cases h2
    | eof => exact ⟨s1, h1⟩

/-- **C28** (always an answer). `ReadRecord()` returns; in particular anything which is neither a record within the limits nor
the end of records is a failure. -/
theorem C28_total (o : ROpts) (s : St) (hst : o.standalone = true → s.src.fails = false) (hu : Usable s) :
    ∃ r s', readRecord o s = some (r, s') := by
  obtain ⟨r, s1, h1, _⟩ := readRecord_good (o := o) hst (usable_good hu)
  exact ⟨r, s1, h1⟩

/-- **C28** (buffers do not matter). Two readers with the same remaining data, the same line number, and the same end (failing or not),
whatever their buffers: `ReadRecord()` has the same result, including the kind of failure, and if it did not fail then the same remaining
data, `line_number()` and `last_line_number()`. -/
theorem C28_fragmentation (o : ROpts) (s t : St) (hs : Usable s) (ht : Usable t) (hst : o.standalone = true → s.src.fails = false)
    (hr : s.src.rest = t.src.rest) (hf : s.src.fails = t.src.fails) (hl : s.line = t.line) :
    ∃ r s' t', readRecord o s = some (r, s') ∧ readRecord o t = some (r, t') ∧
      ((∀ e, r ≠ .fail e) → s'.src.rest = t'.src.rest ∧ s'.line = t'.line ∧ s'.last = t'.last) := by
  obtain ⟨r, s1, h1, h2, _⟩ := readRecord_good (o := o) hst (usable_good hs)
  obtain ⟨r', t1, g1, g2, _⟩ := readRecord_good (o := o) (s := t) (fails := t.src.fails) (by rw [← hf]; exact hst) (usable_good ht)
  rw [hr, hf, hl, ← g2] at h2
  cases r with
  | fail e =>
    cases r' with
    | fail e' => simp only [obs, failOut, Prod.mk.injEq, Ret.fail.injEq] at h2; rw [h2.1] at h1; exact ⟨_, s1, t1, h1, g1, fun h => absurd rfl (h e')⟩
    | eof => cases h2
    | record _ => cases h2
  | eof =>
    cases r' with
    | fail e' => cases h2
    | eof => simp only [obs, Prod.mk.injEq] at h2; exact ⟨_, s1, t1, h1, g1, fun _ => h2.2⟩
    | record _ => cases h2
  | record fs =>
    cases r' with
    | fail e' => cases h2
    | eof => cases h2
    | record fs' =>
      simp only [obs, Prod.mk.injEq, Ret.record.injEq] at h2
      rw [h2.1] at h1
      exact ⟨_, s1, t1, h1, g1, fun _ => h2.2⟩

/-- **C28** (line numbers). After a record was read, `last_line_number()` is the number of the line where the record begins (lines skipped
are counted), and, if there is no escape character, `line_number()` is the number of the line after the record, counting all
newlines in quoted fields. -/
theorem C28_line_numbers (o : ROpts) (hv : o.valid = true) (hst : o.standalone = false) (s : St) (hu : Usable s)
    (fields : List Bytes) (s' : St) (h : readRecord o s = some (.record fields, s')) :
    ∃ skipped enc newline, RecordAt o s.src.rest fields skipped enc newline s'.src.rest ∧
      s'.last = s.line + skipped.count LF ∧
      (o.escape = none → s'.line = s.line + skipped.count LF + enc.count LF + 1) := by
  obtain ⟨r, s1, h1, h2, h3⟩ := readRecord_good (o := o) (fun h => by rw [hst] at h; cases h) (usable_good hu)
  rw [h] at h1
  cases h1
  obtain ⟨sk, enc, nl, a, b, c⟩ := pRecord_sound hv hst h2.symm
  obtain ⟨l, h4, h5⟩ := pRecord_complete hv hst a c b s.line
  rw [h4] at h2
  simp only [obs, Prod.mk.injEq, true_and] at h2
  refine ⟨sk, enc, nl, a, h2.2, fun hes => ?_⟩
  rw [h2.1, h5 hes]
  simp only [lfs, List.count_append]
  omega

/-- **C28** (`HasNextRecord()`). It returns. If it returns `true`, then `ReadRecord()` after it has the same result as it would
have had before it, and this is not the end of records. If it returns `false`, then `ReadRecord()` would have reported the end of
records, or failed because of the source, or failed because of a CR at the beginning of a line without LF. -/
theorem C28_has_next_record (o : ROpts) (hv : o.valid = true) (hst : o.standalone = false) (hmf : 1 ≤ o.maxFields) (s : St)
    (hu : Usable s) :
    ∃ b e s' r t, hasNextRecord o s = some (b, e, s') ∧ readRecord o s = some (r, t) ∧
      (b = true → e = none ∧ r ≠ .eof ∧ Usable s' ∧ ∃ t', readRecord o s' = some (r, t') ∧
        ((∀ e, r ≠ .fail e) → t'.src.rest = t.src.rest ∧ t'.line = t.line ∧ t'.last = t.last)) ∧
      (b = false → e = none → r = .eof ∨ r = .fail .crNoLf) ∧
      (b = false → e ≠ none → e = some .source ∧ r = .fail .source) := by
  obtain ⟨r, t, h1, h2, _⟩ := readRecord_good (o := o) (fun h => by rw [hst] at h; cases h) (usable_good hu)
  obtain ⟨b, e, s', g1, g2⟩ := hasNext_good hv hst hmf _ rfl hu.1 rfl (.inl hu.2)
  have hob : ∀ {p : Out}, obs r t = p → ∀ er, p = failOut er → r = .fail er := by
    intro p h er hp
    rw [hp] at h
    cases r with
    | fail e' => simp only [obs, failOut, Prod.mk.injEq, Ret.fail.injEq] at h; rw [h.1]
    | eof => cases h
    | record _ => cases h
  refine ⟨b, e, s', r, t, g1, h1, ?_, ?_, ?_⟩
  · rintro rfl
    obtain ⟨rfl, k2, k3, k4⟩ := g2
    refine ⟨rfl, ?_, ⟨k2.wf, k2.ok⟩, ?_⟩
    · rintro rfl
      rw [← h2] at k4
      exact k4 rfl
    · obtain ⟨r', t', m1, m2, _⟩ := readRecord_good (o := o) (fun h => by rw [hst] at h; cases h) k2
      rw [k3, ← h2] at m2
      cases r with
      | fail e =>
        cases r' with
        | fail e' => simp only [obs, failOut, Prod.mk.injEq, Ret.fail.injEq] at m2; rw [m2.1] at m1; exact ⟨t', m1, fun h => absurd rfl (h e)⟩
        | eof => cases m2
        | record _ => cases m2
      | eof =>
        cases r' with
        | fail e' => cases m2
        | eof => simp only [obs, Prod.mk.injEq] at m2; exact ⟨t', m1, fun _ => m2.2⟩
        | record _ => cases m2
      | record fs =>
        cases r' with
        | fail e' => cases m2
        | eof => cases m2
        | record fs' =>
          simp only [obs, Prod.mk.injEq, Ret.record.injEq] at m2
          rw [m2.1] at m1
          exact ⟨t', m1, fun _ => m2.2⟩
  · rintro rfl rfl
    rcases g2 with h | h
    · left
      rw [← h2] at h
      cases r with
      | fail e => cases h
      | record _ => cases h
      | eof => rfl
    · exact .inr (hob h2 _ h)
  · rintro rfl hne
    cases e with
    | none => exact absurd rfl hne
    | some e => exact ⟨by rw [g2.1], hob h2 _ g2.2⟩

/-- Calling `ReadRecord()` until the end of records: the records, without a failure. -/
inductive ReadsTable (o : ROpts) : St → List (List Bytes) → Prop
  | stop {s s' : St} (h : readRecord o s = some (.eof, s')) : ReadsTable o s []
  | more {s s' : St} {r : List Bytes} {rs : List (List Bytes)} (h : readRecord o s = some (.record r, s')) (t : ReadsTable o s' rs) :
      ReadsTable o s (r :: rs)

/-- A table which can be written so that it can be read back: the records have fields, within the limits of the reader; and if a
single empty field cannot be quoted, it is not skipped as an empty line. -/
structure Readable (w : WOpts) (o : ROpts) (table : List (List Bytes)) : Prop where
  nonempty : ∀ r ∈ table, r ≠ []
  fields : ∀ r ∈ table, r.length ≤ o.maxFields
  lengths : ∀ r ∈ table, ∀ f ∈ r, f.length ≤ o.maxLen
  emptyLine : w.quote = none → o.skipEmptyLines = true → [[]] ∉ table

/-- The BOM is read if it was written, or the reader cannot see it where it was not written. -/
def BomOk (w : WOpts) (o : ROpts) : Prop :=
  if w.writeBom then o.preserveBom = false else o.preserveBom = true ∨ ∃ q, w.quote = some q ∧ q ≠ 0xef

theorem reads_table {w : WOpts} {o : ROpts} (m : Match w o) (hw : w.valid = true) (hwst : w.standalone = false)
    (hst : o.standalone = false) (hmf : 1 ≤ o.maxFields) : ∀ {table : List (List Bytes)}, Readable w o table → ∀ {data : Bytes},
    writeRecords w table = some data → ∀ {s : St}, Usable s → s.src.fails = false → s.src.rest = data → ReadsTable o s table := by
  have hv := m.valid hw
  intro table
  induction table with
  | nil =>
    intro _ data hd s hu hf hr
    cases hd
    obtain ⟨s', h⟩ := (C28_end o hv hst hmf s hu).2 ⟨⟨[], [], by rw [hr]; rfl, .nil, .inl rfl⟩, hf⟩
    exact .stop h
  | cons r rs ih =>
    intro hread data hd s hu hf hr
    unfold writeRecords at hd
    cases h1 : writeRecord w r with
    | none => rw [h1] at hd; cases hd
    | some a =>
      cases h2 : writeRecords w rs with
      | none => rw [h1, h2] at hd; cases hd
      | some b =>
        rw [h1, h2] at hd
        simp only [Option.some.injEq] at hd
        unfold writeRecord at h1
        cases h3 : writeFields w r with
        | none => rw [h3] at h1; cases h1
        | some x =>
          rw [h3, hwst] at h1
          simp only [Bool.false_eq_true, if_false, Option.some.injEq] at h1
          obtain ⟨e1, e2, e3⟩ := writeFields_enc m hw (hread.nonempty r (by simp)) h3
          have hrec : RecordAt o s.src.rest r [] x w.newline.bytes b := by
            refine ⟨by rw [hr, ← hd, ← h1]; simp, .nil, e1, e2, ?_, ?_⟩
            · intro hx
              obtain ⟨q1, q2⟩ := e3 hx
              constructor
              · cases hse : o.skipEmptyLines with
                | false => rfl
                | true => exact absurd (by rw [← q2]; simp) (hread.emptyLine q1 hse)
              · cases w.newline <;> simp [WNewline.bytes]
            · cases w.newline
              · exact .inl rfl
              · exact .inr (.inl rfl)
          obtain ⟨s', h4, h5, h6, h7⟩ := (C28_read_record o hv hst s hu r b).2
            ⟨[], x, w.newline.bytes, hrec, hread.fields r (by simp), hread.lengths r (by simp), fun _ => hf⟩
          exact .more h4 (ih ⟨fun r hr => hread.nonempty r (by simp [hr]), fun r hr => hread.fields r (by simp [hr]),
            fun r hr => hread.lengths r (by simp [hr]), fun h1 h2 h3 => hread.emptyLine h1 h2 (by simp [h3])⟩ h2 h6
            (by rw [h7, hf]) h5)

/-- **C28** (round trip). Any table of records with arbitrary byte fields, written by `CsvWriter`, is read by `CsvReader` with matching
options as the same table, however the file is cut into buffers. -/
theorem C28_round_trip (w : WOpts) (o : ROpts) (hw : w.valid = true) (hwst : w.standalone = false) (hst : o.standalone = false)
    (m : Match w o) (hmf : 1 ≤ o.maxFields) (hb : BomOk w o) (table : List (List Bytes)) (hread : Readable w o table) (file : Bytes)
    (hf : writeFile w table = some file) (frag : Nat → Nat) :
    ReadsTable o (init o (Rd.ofBytes file false frag)) table := by
  unfold writeFile at hf
  cases h1 : writeRecords w table with
  | none => rw [h1] at hf; cases hf
  | some data =>
    rw [h1] at hf
    simp only [Option.some.injEq] at hf
    obtain ⟨b1, b2, b3, b4, b5⟩ := C29_skip_bom (Rd.ofBytes file false frag) Rd.wf_ofBytes rfl
    have base : Usable (init o (Rd.ofBytes file false frag)) ∧ (init o (Rd.ofBytes file false frag)).src.fails = false := by
      unfold init
      by_cases hp : o.preserveBom = true
      · rw [if_pos hp]; exact ⟨⟨Rd.wf_ofBytes, rfl⟩, rfl⟩
      · rw [if_neg hp]; exact ⟨⟨b3, b5 rfl⟩, b4⟩
    refine reads_table m hw hwst hst hmf hread h1 base.1 base.2 ?_
    unfold init BomOk at *
    by_cases hwb : w.writeBom = true
    · rw [if_pos hwb] at hb hf
      rw [hb]
      exact (b1 data hf.symm).1
    · rw [if_neg hwb] at hb hf
      subst hf
      by_cases hp : o.preserveBom = true
      · rw [if_pos hp]; rfl
      · rw [if_neg hp]
        rcases hb with h | ⟨q, hq, hqe⟩
        · exact absurd h hp
        · refine b2 ?_
          rintro ⟨r, hr⟩
          change data = utf8Bom ++ r at hr
          cases table with
          | nil => cases h1; cases hr
          | cons rec rs =>
            unfold writeRecords at h1
            cases h2 : writeRecord w rec with
            | none => rw [h2] at h1; cases h1
            | some a =>
              cases h3 : writeRecords w rs with
              | none => rw [h2, h3] at h1; cases h1
              | some b =>
                rw [h2, h3] at h1
                simp only [Option.some.injEq] at h1
                unfold writeRecord at h2
                cases h4 : writeFields w rec with
                | none => rw [h4] at h2; cases h2
                | some x =>
                  rw [h4, hwst] at h2
                  simp only [Bool.false_eq_true, if_false, Option.some.injEq] at h2
                  exact writeFields_bom hw hq hqe h4 w.newline (t := b) ⟨r, by rw [← hr, ← h1, ← h2]; simp⟩

/-- **C28** (writing succeeds). If there is a quote character, then every table can be written. Otherwise a table can be written iff
no field has a character which would need quoting. -/
theorem C28_write_succeeds (w : WOpts) (table : List (List Bytes)) :
    (∃ file, writeFile w table = some file) ↔
      (w.quote ≠ none ∨ ∀ r ∈ table, ∀ f ∈ r, ∀ b ∈ f, b ≠ LF ∧ b ≠ CR ∧ w.comment ≠ some b ∧ b ≠ w.sep) := by
  have hneed : ∀ b, w.quote = none → (quotesNeeded w b = false ↔ b ≠ LF ∧ b ≠ CR ∧ w.comment ≠ some b ∧ b ≠ w.sep) := by
    intro b hq
    unfold quotesNeeded
    rw [hq]
    simp [Bool.or_eq_false_iff]
    exact ⟨fun h => ⟨h.1.1.1, h.1.1.2, h.1.2, h.2⟩, fun h => ⟨⟨⟨h.1, h.2.1⟩, h.2.2.1⟩, h.2.2.2⟩⟩
  have hfield : ∀ f, (∃ a, writeField w f = some a) ↔ (w.quote ≠ none ∨ ∀ b ∈ f, b ≠ LF ∧ b ≠ CR ∧ w.comment ≠ some b ∧ b ≠ w.sep) := by
    intro f
    cases hq : w.quote with
    | some q => exact ⟨fun _ => .inl (by simp), fun _ => writeField_some hq f⟩
    | none =>
      simp only [ne_eq, not_true, false_or]
      constructor
      · rintro ⟨a, h⟩
        rcases writeField_wrote h with ⟨_, h⟩ | ⟨q, h, _⟩
        · exact fun b hb => (hneed b hq).1 (h b hb)
        · rw [hq] at h; cases h
      · intro h
        refine ⟨f, ?_⟩
        unfold writeField
        rw [List.findIdx?_eq_none_iff.2 (fun b hb => (hneed b hq).2 (h b hb))]
  have hfirst : ∀ f, (∃ a, writeFirstField w f = some a) ↔ ∃ a, writeField w f = some a := by
    intro f
    unfold writeFirstField
    cases hq : w.quote with
    | none => rfl
    | some q =>
      simp only
      split
      · exact ⟨fun _ => writeField_some hq f, fun _ => ⟨_, rfl⟩⟩
      · rfl
  have hmore : ∀ fs, (∃ a, writeMoreFields w fs = some a) ↔ ∀ f ∈ fs, ∃ a, writeField w f = some a := by
    intro fs
    induction fs with
    | nil => exact ⟨fun _ f h => (by simp at h), fun _ => ⟨[], rfl⟩⟩
    | cons f fs ih =>
      unfold writeMoreFields
      constructor
      · rintro ⟨a, h⟩
        cases h1 : writeField w f with
        | none => rw [h1] at h; cases h
        | some x =>
          cases h2 : writeMoreFields w fs with
          | none => rw [h1, h2] at h; cases h
          | some y =>
            intro g hg
            rcases List.mem_cons.1 hg with rfl | hg
            · exact ⟨x, h1⟩
            · exact ih.1 ⟨y, h2⟩ g hg
      · intro h
        obtain ⟨x, h1⟩ := h f (by simp)
        obtain ⟨y, h2⟩ := ih.2 (fun g hg => h g (by simp [hg]))
        rw [h1, h2]; exact ⟨_, rfl⟩
  have hrec : ∀ r, (∃ a, writeRecord w r = some a) ↔ ∀ f ∈ r, ∃ a, writeField w f = some a := by
    intro r
    have : (∃ a, writeRecord w r = some a) ↔ ∃ a, writeFields w r = some a := by
      unfold writeRecord
      cases writeFields w r with
      | none => simp
      | some a => simp
    rw [this]
    match r with
    | [] => exact ⟨fun _ f h => (by simp at h), fun _ => ⟨[], rfl⟩⟩
    | [f] =>
      simp only [List.mem_singleton, forall_eq]
      rw [← hfirst]
      unfold writeFields
      simp only
      cases writeFirstField w f <;> simp
    | f :: g :: fs =>
      have e : (∀ x ∈ f :: g :: fs, ∃ a, writeField w x = some a) ↔ (∃ a, writeFirstField w f = some a) ∧ ∃ a, writeMoreFields w (g :: fs) = some a := by
        rw [hfirst, hmore]; simp
      rw [e]
      unfold writeFields
      simp only
      cases writeFirstField w f with
      | none => simp
      | some a =>
        cases writeMoreFields w (g :: fs) with
        | none => simp
        | some b => simp
  have hrecs : ∀ rs, (∃ a, writeRecords w rs = some a) ↔ ∀ r ∈ rs, ∃ a, writeRecord w r = some a := by
    intro rs
    induction rs with
    | nil => exact ⟨fun _ f h => (by simp at h), fun _ => ⟨[], rfl⟩⟩
    | cons r rs ih =>
      unfold writeRecords
      constructor
      · rintro ⟨a, h⟩
        cases h1 : writeRecord w r with
        | none => rw [h1] at h; cases h
        | some x =>
          cases h2 : writeRecords w rs with
          | none => rw [h1, h2] at h; cases h
          | some y =>
            intro g hg
            rcases List.mem_cons.1 hg with rfl | hg
            · exact ⟨x, h1⟩
            · exact ih.1 ⟨y, h2⟩ g hg
      · intro h
        obtain ⟨x, h1⟩ := h r (by simp)
        obtain ⟨y, h2⟩ := ih.2 (fun g hg => h g (by simp [hg]))
        rw [h1, h2]; exact ⟨_, rfl⟩
  have : (∃ file, writeFile w table = some file) ↔ ∃ a, writeRecords w table = some a := by
    unfold writeFile
    cases writeRecords w table <;> simp
  rw [this, hrecs]
  constructor
  · intro h
    cases hq : w.quote with
    | some q => exact .inl (by simp)
    | none =>
      right
      intro r hr f hf
      rcases (hfield f).1 ((hrec r).1 (h r hr) f hf) with h | h
      · exact absurd hq h
      · exact h
  · intro h r hr
    rw [hrec]
    intro f hf
    rw [hfield]
    rcases h with h | h
    · exact .inl h
    · exact .inr (h r hr f hf)

/-- **C28** (one record in a string). `WriteCsvRecordToString()` then `ReadCsvRecordFromString()` gives the same record, whatever its
fields, including newlines; without a failure of the limits. -/
theorem C28_standalone_round_trip (w : WOpts) (o : ROpts) (hw : w.valid = true) (hwst : w.standalone = true) (hst : o.standalone = true)
    (m : Match w o) (record : List Bytes) (hne : record ≠ []) (h1 : record.length ≤ o.maxFields) (h2 : ∀ f ∈ record, f.length ≤ o.maxLen)
    (text : Bytes) (ht : writeRecord w record = some text) (s : St) (hu : Usable s) (hf : s.src.fails = false) (hs : s.src.rest = text) :
    ∃ s', readRecord o s = some (.record record, s') ∧ s'.src.rest = [] := by
  have hv := m.valid hw
  unfold writeRecord at ht
  cases h3 : writeFields w record with
  | none => rw [h3] at ht; cases ht
  | some x =>
    rw [h3, hwst] at ht
    simp only [if_true, Option.some.injEq] at ht
    subst ht
    obtain ⟨e1, e2, _⟩ := writeFields_enc m hw hne h3
    obtain ⟨l, h4⟩ := pRecord_standalone hv hst e1 e2 ⟨h1, h2⟩ s.line
    obtain ⟨r, s1, g1, g2, _⟩ := readRecord_good (o := o) (fun _ => hf) (usable_good hu)
    rw [hf, hs, h4] at g2
    cases r with
    | fail e => cases g2
    | eof => cases g2
    | record fs =>
      simp only [obs, Prod.mk.injEq, Ret.record.injEq] at g2
      rw [← g2.1]
      exact ⟨s1, g1, g2.2.1⟩

/-! Non-vacuity: the default options; a table with separators, quotes, newlines, a BOM and empty fields. -/

/-- The default options of the writer, and of the reader. -/
def exW : WOpts := ⟨.lf, none, 44, some 34, false, false⟩
def exO : ROpts := ⟨none, 44, some 34, none, false, false, 100, 1000, false⟩
def exTable : List (List Bytes) := [[[0xef, 0xbb, 0xbf, 97], [98, 34, 99]], [[]], [[44], [10], [13, 10], []]]

example : exW.valid = true ∧ Match exW exO ∧ BomOk exW exO ∧ Readable exW exO exTable :=
  ⟨by decide, ⟨rfl, rfl, rfl, rfl⟩, .inr ⟨34, rfl, by decide⟩, ⟨by decide, by decide, by decide, by decide⟩⟩
example : writeFile exW [[[97], [98, 34]], [[]]] = some [97, 44, 34, 98, 34, 34, 34, 10, 34, 34, 10] := by
  have : quotedLoop 34 [98, 34] 0 1 = [98, 34, 34] := by rw [quotedLoop_eq 34 _ _ 0 1 rfl (by omega)]; rfl
  simp [writeFile, writeRecords, writeRecord, writeFields, writeFirstField, writeMoreFields, writeField, exW, looksLikeBom, quotesNeeded,
    writeQuotes, writeQuoted, WNewline.bytes, LF, CR, List.findIdx?_cons, this]
example : RecordAt exO [97, 44, 34, 98, 34, 34, 34, 13, 10, 99] [[97], [98, 34]] [] [97, 44, 34, 98, 34, 34, 34] [13, 10] [99] := by
  refine ⟨rfl, .nil, ?_, (by intro c h; cases h), (by simp), .inr (.inl rfl)⟩
  exact RecordEnc.mk (e := [97]) (es := [44, 34, 98, 34, 34, 34]) (.plain (.char (by simp [Special, exO, LF, CR]) .nil))
    (MoreEnc.cons (e := [34, 98, 34, 34, 34]) (es := []) (FieldEnc.quoted (q := 34) (e := [98, 34, 34]) rfl
      (.char (by decide) (by simp [exO]) (.twice .nil))) .nil)
example : NoRecords { exO with comment := some 35, skipEmptyLines := true } [35, 97, 10, 10, 35, 98] :=
  ⟨[35, 97, 10, 10], [35, 98], rfl, Skipped.comment (l := [97]) rfl (by decide) (.lf rfl .nil), .inr ⟨35, [98], rfl, rfl, by decide⟩⟩

/-! ## Where the round trip fails in the unchanged code -/

/-- Finding 10 of DESIGN.md. The condition `BomOk` is needed: if the quote character is EF, then a first field beginning with BB BF written in quotes looks like
a BOM, which the reader skips. The table `[["\xBB\xBF,"]]` is read back as a different one (or not at all). -/
theorem C28_bom_quote_counterexample :
    ∃ (w : WOpts) (o : ROpts) (table : List (List Bytes)) (file : Bytes), w.valid = true ∧ w.standalone = false ∧ o.standalone = false ∧
      Match w o ∧ 1 ≤ o.maxFields ∧ Readable w o table ∧ w.quote ≠ none ∧ writeFile w table = some file ∧
      ∀ frag, ¬ReadsTable o (init o (Rd.ofBytes file false frag)) table := by
  let w : WOpts := ⟨.lf, none, 44, some 0xef, false, false⟩
  let o : ROpts := ⟨none, 44, some 0xef, none, false, false, 100, 1000, false⟩
  have hloop : quotedLoop 0xef [0xbb, 0xbf, 44] 0 2 = [0xbb, 0xbf, 44] := by rw [quotedLoop_eq _ _ _ 0 2 rfl (by omega)]; rfl
  refine ⟨w, o, [[[0xbb, 0xbf, 44]]], [0xef, 0xbb, 0xbf, 44, 0xef, 10], by decide, rfl, rfl, ⟨rfl, rfl, rfl, rfl⟩, by decide,
    ⟨by decide, by decide, by decide, by decide⟩, by simp [w], ?_, ?_⟩
  · simp [writeFile, writeRecords, writeRecord, writeFields, writeFirstField, writeField, w, looksLikeBom, quotesNeeded,
      writeQuoted, WNewline.bytes, LF, CR, List.findIdx?_cons, hloop]
  · intro frag h
    obtain ⟨b1, _, b3, b4, b5⟩ := C29_skip_bom (Rd.ofBytes [0xef, 0xbb, 0xbf, 44, 0xef, 10] false frag) Rd.wf_ofBytes rfl
    cases h with
    | more h t =>
      have hu : Usable (init o (Rd.ofBytes [0xef, 0xbb, 0xbf, 44, 0xef, 10] false frag)) := ⟨b3, b5 rfl⟩
      obtain ⟨sk, enc, nl, hrec, _⟩ := (C28_read_record o (by decide) rfl _ hu [[0xbb, 0xbf, 44]] _).1
        ⟨_, h, rfl, by
          obtain ⟨r, s1, h1, _, h3⟩ := readRecord_good (o := o) (fun h => by cases h) (usable_good hu)
          rw [h] at h1; cases h1
          have := h3 (by intro e h; cases h)
          exact ⟨this.wf, this.ok⟩, by
          obtain ⟨r, s1, h1, _, h3⟩ := readRecord_good (o := o) (fun h => by cases h) (usable_good hu)
          rw [h] at h1; cases h1
          exact (h3 (by intro e h; cases h)).fails⟩
      have hr : (init o (Rd.ofBytes [0xef, 0xbb, 0xbf, 44, 0xef, 10] false frag)).src.rest = [44, 0xef, 10] := (b1 [44, 0xef, 10] rfl).1
      rw [hr] at hrec
      have hcut := hrec.cut
      have hmem : (0xbb : UInt8) ∈ [44, 0xef, 10] := by
        rw [hcut]
        have hen := hrec.isEnc
        cases hen with
        | @mk f e fs es hfe hm =>
          have : (0xbb : UInt8) ∈ e := by
            cases hfe with
            | plain hp => cases hp with
              | char _ _ => simp
              | escaped h _ => cases h
            | quoted hq hi =>
              cases hq
              cases hi with
              | char _ _ _ => simp
              | escaped h _ => cases h
          simp [this]
      exact absurd hmem (by decide)

end Riegeli.Props
