import Verif.LinesProofs
/-!
# C29: reading lines

`splitLine n data` (in `Lines.lean`) is the specification of the first line of `data`: it is characterized independently of its
definition by `C29_lines_spec`. `expected` says what one call of `ReadLine()` is to do.
-/
namespace Riegeli.Props
open Riegeli Riegeli.Lines

/-- **C29** (what is a line). The first line, its terminator and the rest of the data are exactly the unique way of cutting
the data such that: nothing is lost; the line has no LF; the terminator is LF, or CR LF if it is recognized, or missing at the
end of data; a CR before LF belongs to the terminator if CR LF is recognized. -/
theorem C29_lines_spec (n : Newline) (data line term rest : Bytes) :
    splitLine n data = (line, term, rest) ↔
    data = line ++ term ++ rest ∧ LF ∉ line ∧
    (term = [] ∧ rest = [] ∨ term = [LF] ∧ (n = .crLfOrLf → line.getLast? ≠ some CR) ∨ n = .crLfOrLf ∧ term = [CR, LF]) := by
  constructor
  · intro h
    by_cases hm : LF ∈ data
    · obtain ⟨p, q, rfl, hp⟩ := List.append_of_mem hm |> fun _ => by
        exact (show ∃ p q, data = p ++ LF :: q ∧ LF ∉ p by
          cases hf : memchr LF data with
          | none => exact absurd hm (memchr_none hf)
          | some i => obtain ⟨p, q, e, h1, _⟩ := memchr_some hf; exact ⟨p, q, e, h1⟩)
      rw [split_found hp] at h
      split at h
      · rename_i hc
        cases h
        obtain ⟨p', rfl⟩ := List.getLast?_eq_some_iff.1 hc.2
        rw [List.dropLast_concat]
        exact ⟨by simp, fun hx => hp (by simp [hx]), .inr (.inr ⟨hc.1, rfl⟩)⟩
      · rename_i hc
        cases h
        exact ⟨by simp, hp, .inr (.inl ⟨rfl, fun h1 h2 => hc ⟨h1, h2⟩⟩)⟩
    · rw [split_none hm] at h
      cases h
      exact ⟨by simp, hm, .inl ⟨rfl, rfl⟩⟩
  · rintro ⟨rfl, hl, ⟨rfl, rfl⟩ | ⟨rfl, hc⟩ | ⟨hn, rfl⟩⟩
    · rw [List.append_nil, List.append_nil]; exact split_none hl
    · rw [List.append_assoc]
      show splitLine n (line ++ LF :: rest) = _
      rw [split_found hl, if_neg (fun h => hc h.1 h.2)]
    · rw [show line ++ [CR, LF] ++ rest = (line ++ [CR]) ++ LF :: rest by simp, split_found, if_pos ⟨hn, by simp⟩,
        List.dropLast_concat]
      simp only [List.mem_append, not_or]
      exact ⟨hl, by decide⟩

/-- What one call does to the data: value returned, `dest`, the data left, whether the reader is OK. -/
def observed (r : Res) : Bool × Bytes × Bytes × Bool := (r.ret, r.dest, r.src.rest, r.src.ok)

/-- **C29** (one call). For every state of the reader, however the rest of the source is cut into buffers, whether the
source ends or fails: `ReadLine()` into a string (`Chain`, `Cord`) and `ReadLine()` into a `string_view` return, and do exactly
what is expected: the first line of the remaining data (with its terminator if `keep_newline`), the reader being left after
its terminator; or `false` at the end of the source; or a failure if the line exceeds `max_length`, or if the source fails. -/
theorem C29_read_line (o : Opts) (s : Rd) (hw : s.Wf) (hok : s.ok = true) :
    (∃ r, readLine o s = some r ∧ observed r = expected o s.fails s.rest ∧ r.src.Wf ∧ r.src.fails = s.fails) ∧
    (∃ r, readLineView o s = some r ∧ observed r = expected o s.fails s.rest ∧ r.src.Wf ∧ r.src.fails = s.fails) := by
  constructor
  · obtain ⟨r, h, g⟩ := readLine_good (o := o) hw hok
    exact ⟨r, h, by unfold observed; rw [g.ret, g.dest, g.rest, g.ok]; simp, g.wf, g.fails⟩
  · obtain ⟨r, h, g⟩ := readLineView_good (o := o) hw hok
    exact ⟨r, h, by unfold observed; rw [g.ret, g.dest, g.rest, g.ok]; simp, g.wf, g.fails⟩

/-- Every data has exactly one list of lines; with their terminators they make up the data. -/
theorem C29_lines_exist_unique (n : Newline) (data : Bytes) :
    ∃ ls, LinesOf n data ls ∧ (∀ ls', LinesOf n data ls' → ls' = ls) ∧ ls.flatMap (fun l => l.1 ++ l.2) = data ∧
      ∀ l ∈ ls, LF ∉ l.1 ∧ (l.2 = [] ∨ l.2 = [LF] ∨ n = .crLfOrLf ∧ l.2 = [CR, LF]) := by
  generalize hk : data.length = k
  induction k using Nat.strongRecOn generalizing data with
  | _ k ih =>
    by_cases hd : data = []
    · subst hd
      refine ⟨[], .nil, ?_, rfl, by simp⟩
      intro ls' h
      cases h with
      | nil => rfl
      | cons h _ => exact absurd rfl h
    · have hs := (C29_lines_spec n data _ _ _).1 (rfl : splitLine n data = ((splitLine n data).1, (splitLine n data).2.1,
        (splitLine n data).2.2))
      obtain ⟨h1, h2, h3⟩ := hs
      have hlt : (splitLine n data).2.2.length < k := by
        have h4 : data.length = (splitLine n data).1.length + (splitLine n data).2.1.length +
            (splitLine n data).2.2.length := by
          have := congrArg List.length h1
          rw [List.length_append, List.length_append] at this
          exact this
        rcases h3 with ⟨_, h⟩ | ⟨h, _⟩ | ⟨_, h⟩
        · rw [h]
          have : data.length ≠ 0 := fun h => hd (List.eq_nil_of_length_eq_zero h)
          simp; omega
        · have h5 : (splitLine n data).2.1.length = 1 := by rw [h]; rfl
          omega
        · have h5 : (splitLine n data).2.1.length = 2 := by rw [h]; rfl
          omega
      obtain ⟨ls, a, b, c, d⟩ := ih _ hlt _ rfl
      refine ⟨_, .cons hd a, ?_, ?_, ?_⟩
      · intro ls' h
        cases h with
        | nil => exact absurd rfl hd
        | cons h hr => rw [b _ hr]
      · rw [List.flatMap_cons, c]; exact h1.symm
      · intro l hl
        rcases List.mem_cons.1 hl with rfl | hl
        · exact ⟨h2, by rcases h3 with ⟨h, _⟩ | ⟨h, _⟩ | h; (· exact .inl h); (· exact .inr (.inl h)); (· exact .inr (.inr h))⟩
        · exact d l hl

/-- **C29** (reading to the end). For every content and every cutting of it into buffers, calling `ReadLine()` until it
returns `false` gives exactly the lines of the content (with the terminators if `keep_newline`), and ends without a failure
with everything read, provided that no line exceeds `max_length`. The same holds for the `string_view` version. -/
theorem C29_read_all (o : Opts) (data : Bytes) (frag : Nat → Nat) (ls : List (Bytes × Bytes)) (hl : LinesOf o.newline data ls)
    (hm : ∀ l ∈ ls, (if o.keepNewline then l.1 ++ l.2 else l.1).length ≤ o.maxLength) (f : Rd → Option Res)
    (hf : f = readLine o ∨ f = readLineView o) :
    ∃ s', ReadsAll f (Rd.ofBytes data false frag) (ls.map fun l => if o.keepNewline then l.1 ++ l.2 else l.1) s' ∧
      s'.ok = true ∧ s'.rest = [] := by
  have hone : ∀ s : Rd, s.Wf → s.ok = true → ∃ r, f s = some r ∧ observed r = expected o s.fails s.rest ∧ r.src.Wf ∧
      r.src.fails = s.fails := by
    intro s hw hok
    rcases hf with rfl | rfl
    · exact (C29_read_line o s hw hok).1
    · exact (C29_read_line o s hw hok).2
  suffices ∀ s : Rd, s.Wf → s.ok = true → s.fails = false → s.rest = data → ∃ s', ReadsAll f s
      (ls.map fun l => if o.keepNewline then l.1 ++ l.2 else l.1) s' ∧ s'.ok = true ∧ s'.rest = [] from
    this _ Rd.wf_ofBytes rfl rfl rfl
  induction hl with
  | nil =>
    intro s hw hok hfl hd
    obtain ⟨r, h1, h2, _, _⟩ := hone s hw hok
    rw [hd, hfl, expected_nil] at h2
    simp only [observed, Prod.mk.injEq] at h2
    exact ⟨_, .stop h1 h2.1, h2.2.2.2, h2.2.2.1⟩
  | @cons data ls hne hr ih =>
    intro s hw hok hfl hd
    obtain ⟨r, h1, h2, h3, h4⟩ := hone s hw hok
    have hlen := hm _ List.mem_cons_self
    simp only at hlen
    have hs := (C29_lines_spec o.newline data _ _ _).1 (rfl : splitLine o.newline data = ((splitLine o.newline data).1,
      (splitLine o.newline data).2.1, (splitLine o.newline data).2.2))
    have hex : expected o s.fails s.rest = (true, (if o.keepNewline then (splitLine o.newline data).1 ++
        (splitLine o.newline data).2.1 else (splitLine o.newline data).1), (splitLine o.newline data).2.2, true) := by
      rw [hd, hfl]
      unfold expected
      rw [if_neg hne]
      simp only
      rw [if_neg (by omega)]
      by_cases ht : (splitLine o.newline data).2.1 = []
      · rw [if_pos ht]
        have : (splitLine o.newline data).2.2 = [] := by
          rcases hs.2.2 with ⟨_, h⟩ | ⟨h, _⟩ | ⟨_, h⟩
          · exact h
          · rw [ht] at h; cases h
          · rw [ht] at h; cases h
        rw [this]; rfl
      · rw [if_neg ht]
    rw [hex] at h2
    simp only [observed, Prod.mk.injEq] at h2
    obtain ⟨a, b, c, d⟩ := h2
    obtain ⟨s', h5, h6, h7⟩ := ih (fun l hl => hm l (by simp [hl])) r.src h3 d (by rw [h4, hfl]) c
    refine ⟨s', ?_, h6, h7⟩
    rw [List.map_cons, ← b]
    exact .more h1 a h5

/-- **C29** (round trip). Lines written with `WriteLine()` are read back, in any way the file is cut into buffers, if
no line contains LF, and, if CR LF is recognized while LF was written, no line ends with CR. -/
theorem C29_round_trip (o : Opts) (w : WNewline) (lines : List Bytes) (frag : Nat → Nat)
    (hw : w = .crLf → o.newline = .crLfOrLf) (hl : ∀ l ∈ lines, LF ∉ l)
    (hc : w = .lf → o.newline = .crLfOrLf → ∀ l ∈ lines, l.getLast? ≠ some CR)
    (hm : ∀ l ∈ lines, l.length ≤ o.maxLength) (hk : o.keepNewline = false) (f : Rd → Option Res)
    (hf : f = readLine o ∨ f = readLineView o) :
    ∃ s', ReadsAll f (Rd.ofBytes (lines.flatMap (writeLine w)) false frag) lines s' ∧ s'.ok = true ∧ s'.rest = [] := by
  have hof : LinesOf o.newline (lines.flatMap (writeLine w)) (lines.map fun l => (l, w.bytes)) := by
    clear hm
    induction lines with
    | nil => exact .nil
    | cons l lines ih =>
      have hsp : splitLine o.newline ((l :: lines).flatMap (writeLine w)) = (l, w.bytes, lines.flatMap (writeLine w)) := by
        rw [C29_lines_spec]
        refine ⟨by rw [List.flatMap_cons]; rfl, hl l (by simp), ?_⟩
        cases w with
        | lf => exact .inr (.inl ⟨rfl, fun h => hc rfl h l (by simp)⟩)
        | crLf => exact .inr (.inr ⟨hw rfl, rfl⟩)
      have := LinesOf.cons (n := o.newline) (data := (l :: lines).flatMap (writeLine w))
        (ls := lines.map fun l => (l, w.bytes)) ?_ ?_
      · rw [hsp] at this; exact this
      · rw [List.flatMap_cons]
        intro h
        simp only [List.append_eq_nil_iff, writeLine] at h
        cases w
        · cases h.1.2
        · cases h.1.2
      · rw [hsp]
        exact ih (fun l hl' => hl l (by simp [hl'])) (fun h1 h2 l hl' => hc h1 h2 l (by simp [hl']))
  obtain ⟨s', h1, h2, h3⟩ := C29_read_all o _ frag _ hof (by
    intro l hl'
    simp only [List.mem_map] at hl'
    obtain ⟨x, hx, rfl⟩ := hl'
    rw [hk]
    exact hm x hx) f hf
  refine ⟨s', ?_, h2, h3⟩
  rw [hk, List.map_map] at h1
  have he : ((fun l : Bytes × Bytes => if false = true then l.1 ++ l.2 else l.1) ∘ fun l => (l, w.bytes)) = id := by
    funext l; simp
  rw [he, List.map_id] at h1
  exact h1

/-- **C29** (BOM). `SkipUtf8Bom()` skips the BOM if the content begins with it, however it is cut into buffers, and
otherwise does not move. -/
theorem C29_skip_bom (s : Rd) (hw : s.Wf) (hok : s.ok = true) :
    (∀ r, s.rest = utf8Bom ++ r → (skipUtf8Bom s).rest = r ∧ (skipUtf8Bom s).ok = true) ∧
    ((¬∃ r, s.rest = utf8Bom ++ r) → (skipUtf8Bom s).rest = s.rest) ∧
    (skipUtf8Bom s).Wf ∧ (skipUtf8Bom s).fails = s.fails ∧ (s.fails = false → (skipUtf8Bom s).ok = true) := by
  unfold skipUtf8Bom
  rcases Rd.pull_cases (n := 3) hw hok with ⟨h, s', e, er, ef, eo, ew, _, _⟩ | ⟨h, s', e, er, ef, eo, ew, _⟩
  · rw [e]
    simp only
    by_cases hb : s'.rest.take 3 = utf8Bom
    · rw [if_pos hb]
      refine ⟨?_, ?_, Rd.wf_advance ew, ef, fun _ => eo⟩
      · intro r hr
        refine ⟨?_, eo⟩
        show s'.rest.drop 3 = r
        rw [er, hr]; rfl
      · intro hn
        refine absurd ⟨s.rest.drop 3, ?_⟩ hn
        rw [← hb, er, List.take_append_drop]
    · rw [if_neg hb]
      refine ⟨?_, fun _ => er, ew, ef, fun _ => eo⟩
      intro r hr
      exact absurd (by rw [er, hr]; rfl) hb
  · rw [e]
    simp only
    refine ⟨?_, fun _ => er, ew, ef, fun h => by rw [eo, h]; rfl⟩
    intro r hr
    rw [hr] at h
    simp [utf8Bom] at h
    omega

/-! Non-vacuity: CR LF cut between the buffers, a lone CR, a missing last terminator. -/
example : LinesOf .crLfOrLf [97, 13, 10, 13, 98, 10, 99] [([97], [13, 10]), ([13, 98], [10]), ([99], [])] := by
  refine LinesOf.cons (n := .crLfOrLf) (data := [97, 13, 10, 13, 98, 10, 99]) (by simp) ?_
  refine LinesOf.cons (n := .crLfOrLf) (data := [13, 98, 10, 99]) (by simp) ?_
  exact LinesOf.cons (n := .crLfOrLf) (data := [99]) (by simp) .nil
example : LinesOf .lf [97, 13, 10] [([97, 13], [10])] :=
  LinesOf.cons (n := .lf) (data := [97, 13, 10]) (by simp) .nil
example : expected ⟨.crLfOrLf, false, 5⟩ false [97, 13, 10, 98] = (true, [97], [98], true) := by decide
example : expected ⟨.crLfOrLf, true, 2⟩ false [97, 13, 10, 98] = (false, [97, 13], [10, 98], false) := by decide
example : (Rd.ofBytes [97, 13, 10, 98] false fun _ => 2).Wf ∧ (Rd.ofBytes [97, 13, 10, 98] false fun _ => 2).ok = true :=
  ⟨Nat.zero_le _, rfl⟩

end Riegeli.Props
