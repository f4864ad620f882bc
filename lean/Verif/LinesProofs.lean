import Verif.Lines
/-!
# Proofs about line reading
-/
namespace Riegeli
namespace Lines
open Rd

variable {n : Newline} {o : Opts}

theorem split_prefix {p r : Bytes} (hp : LF ∉ p) (hc : n = .crLfOrLf → p.getLast? = some CR → r.head? ≠ some LF) :
    splitLine n (p ++ r) = (p ++ (splitLine n r).1, (splitLine n r).2) := by
  induction p with
  | nil => rfl
  | cons b p ih =>
    simp only [List.mem_cons, not_or] at hp
    have hc2 : ¬(n = .crLfOrLf ∧ b = CR ∧ (p ++ r).head? = some LF) := by
      rintro ⟨h1, h2, h3⟩
      cases p with
      | nil => exact hc h1 (by simp [h2]) h3
      | cons c p => simp only [List.cons_append, List.head?_cons, Option.some.injEq] at h3; exact hp.2 (by simp [h3])
    rw [List.cons_append, splitLine, if_neg (fun e => hp.1 e.symm), if_neg hc2, ih hp.2 ?_]
    · rfl
    · intro h1 h2
      cases p with
      | nil => cases h2
      | cons c p => exact hc h1 (by rw [List.getLast?_cons_cons]; exact h2)

theorem split_found {p q : Bytes} (hp : LF ∉ p) :
    splitLine n (p ++ LF :: q) =
      if n = .crLfOrLf ∧ p.getLast? = some CR then (p.dropLast, [CR, LF], q) else (p, [LF], q) := by
  by_cases hc : n = .crLfOrLf ∧ p.getLast? = some CR
  · rw [if_pos hc]
    obtain ⟨h1, h2⟩ := hc
    obtain ⟨p', rfl⟩ : ∃ p', p = p' ++ [CR] := by
      rw [List.getLast?_eq_some_iff] at h2; exact h2
    rw [List.dropLast_concat, List.append_assoc, split_prefix (p := p')]
    · have : splitLine n ([CR] ++ LF :: q) = ([], [CR, LF], q) := by
        show splitLine n (CR :: LF :: q) = _
        rw [splitLine, if_neg (by decide), if_pos ⟨h1, rfl, rfl⟩]; rfl
      rw [this]; simp
    · intro h; exact hp (by simp [h])
    · intro _ _; show some CR ≠ some LF; decide
  · rw [if_neg hc, split_prefix hp]
    · have : splitLine n (LF :: q) = ([], [LF], q) := by rw [splitLine, if_pos rfl]
      rw [this]; simp
    · intro h1 h2; exact absurd ⟨h1, h2⟩ hc

theorem split_none {p : Bytes} (hp : LF ∉ p) : splitLine n p = (p, [], []) := by
  have := split_prefix (n := n) (r := []) hp (by intro _ _; simp)
  simpa [splitLine] using this

/-- The result `r` is the one expected, after `dest` has been read before. -/
structure Good (o : Opts) (s : Rd) (dest : Bytes) (r : Res) : Prop where
  ret : r.ret = (expected o s.fails s.rest).1
  dest : r.dest = dest ++ (expected o s.fails s.rest).2.1
  rest : r.src.rest = (expected o s.fails s.rest).2.2.1
  ok : r.src.ok = (expected o s.fails s.rest).2.2.2
  wf : r.src.Wf
  fails : r.src.fails = s.fails

theorem Good.congr {s s' : Rd} {dest : Bytes} {r : Res} (h : Good o s' dest r) (h1 : s'.rest = s.rest)
    (h2 : s'.fails = s.fails) : Good o s dest r := by
  obtain ⟨a, b, c, d, e, f⟩ := h
  rw [h1, h2] at *
  exact ⟨a, b, c, d, e, f⟩

theorem getLast_of_index {p t : Bytes} {i : Nat} (hi : p.length = i) (h0 : 0 < i) : (p ++ t)[i - 1]? = p.getLast? := by
  rw [List.getElem?_append_left (by omega), List.getLast?_eq_getElem?, hi]

theorem failMax_good {s : Rd} {dest : Bytes} (hw : s.Wf) (hne : s.rest ≠ [])
    (hl : (if o.keepNewline then (splitLine o.newline s.rest).1 ++ (splitLine o.newline s.rest).2.1
      else (splitLine o.newline s.rest).1).length > o.maxLength) : Good o s dest (failMax s dest o.maxLength) := by
  have he : expected o s.fails s.rest = (false, s.rest.take o.maxLength, s.rest.drop o.maxLength, false) := by
    unfold expected; rw [if_neg hne]; simp only; rw [if_pos hl]
  exact ⟨by rw [he]; rfl, by rw [he]; rfl, by rw [he]; rfl, by rw [he]; rfl, wf_advance hw, rfl⟩

/-- A line terminator has been found. -/
theorem foundNewline_good {s : Rd} {dest l t q : Bytes} (hw : s.Wf) (hok : s.ok = true)
    (hs : splitLine o.newline s.rest = (l, t, q)) (hr : s.rest = l ++ t ++ q) (ht : t ≠ []) {i k : Nat}
    (hi : l.length = i) (hk : t.length = k) : Good o s dest (foundNewline s dest o i k) := by
  subst hi hk
  have hne : s.rest ≠ [] := by rw [hr]; intro h; simp only [List.append_eq_nil_iff] at h; exact ht h.1.2
  have hlen : (if o.keepNewline then l ++ t else l).length =
      if o.keepNewline then l.length + t.length else l.length := by split <;> simp
  unfold foundNewline
  simp only
  by_cases h : (if o.keepNewline then l.length + t.length else l.length) > o.maxLength
  · rw [if_pos h]
    exact failMax_good hw hne (by rw [hs]; simp only; rw [hlen]; exact h)
  · rw [if_neg h]
    have he : expected o s.fails s.rest = (true, (if o.keepNewline then l ++ t else l), q, true) := by
      unfold expected; rw [if_neg hne]; simp only; rw [hs]; simp only; rw [hlen, if_neg h, if_neg ht]
    refine ⟨by rw [he], ?_, ?_, by rw [he]; exact hok, wf_advance hw, rfl⟩
    · rw [he]
      show dest ++ s.rest.take _ = _
      congr 1
      rw [hr]
      cases o.keepNewline
      · simp
      · simp only [if_true]
        rw [show l.length + t.length = (l ++ t).length by simp, List.take_left]
    · rw [he]
      show s.rest.drop (l.length + t.length) = q
      rw [hr, show l.length + t.length = (l ++ t).length by simp, List.drop_left]

/-- A line feed has been found at the index `i`. -/
theorem foundLf_good {s : Rd} {dest p q : Bytes} (hw : s.Wf) (hok : s.ok = true) (hm : o.newline = .crLfOrLf)
    (hr : s.rest = p ++ LF :: q) (hp : LF ∉ p) {i : Nat} (hi : p.length = i) :
    Good o s dest (if i > 0 ∧ s.rest[i - 1]? = some CR then foundNewline s dest o (i - 1) 2
      else foundNewline s dest o i 1) := by
  have hsp := split_found (n := o.newline) (q := q) hp
  by_cases hc : p.getLast? = some CR
  · have h0 : 0 < i := by
      cases p with
      | nil => cases hc
      | cons b p => simp at hi; omega
    rw [if_pos ⟨h0, by rw [hr, getLast_of_index hi h0]; exact hc⟩]
    rw [if_pos ⟨hm, hc⟩] at hsp
    rw [List.getLast?_eq_some_iff] at hc
    obtain ⟨p', rfl⟩ := hc
    rw [List.dropLast_concat] at hsp
    refine foundNewline_good (l := p') (t := [CR, LF]) (q := q) hw hok (by rw [hr]; exact hsp) (by rw [hr]; simp) (by simp) ?_ rfl
    simp at hi; omega
  · rw [if_neg (fun h => hc (by rw [← getLast_of_index hi h.1]; rw [hr] at h; exact h.2))]
    rw [if_neg (fun h => hc h.2)] at hsp
    exact foundNewline_good (l := p) (t := [LF]) (q := q) hw hok (by rw [hr]; exact hsp) (by rw [hr]; simp) (by simp) hi rfl

theorem rest_found {s : Rd} {p q : Bytes} {c : UInt8} (e : s.buffer = p ++ c :: q) :
    s.rest = p ++ c :: (q ++ s.rest.drop s.avail) := by
  have := rest_eq_buffer s
  rw [e] at this
  simpa using this

/-- What the scan of the buffer guarantees. -/
def StepGood (o : Opts) (s : Rd) (dest : Bytes) : Step → Prop
  | .done r => Good o s dest r
  | .cont s' length => s'.rest = s.rest ∧ s'.fails = s.fails ∧ s'.ok = true ∧ s'.Wf ∧ 0 < length ∧ length ≤ s'.avail ∧
      LF ∉ s.rest.take length ∧
      (o.newline = .crLfOrLf → (s.rest.take length).getLast? = some CR → (s.rest.drop length).head? ≠ some LF)

theorem StepGood.congr {s s' : Rd} {dest : Bytes} {x : Step} (h : StepGood o s' dest x) (h1 : s'.rest = s.rest)
    (h2 : s'.fails = s.fails) : StepGood o s dest x := by
  cases x with
  | done r => exact Good.congr h h1 h2
  | cont t k => unfold StepGood at *; rw [h1, h2] at h; exact h

theorem buffer_last {s : Rd} (hw : s.Wf) (h0 : 0 < s.avail) : s.buffer.getLast? = s.rest[s.avail - 1]? := by
  rw [List.getLast?_eq_getElem?, buffer_length hw, buffer, List.getElem?_take, if_pos (by omega)]

/-- Nothing was found in the buffer, and it does not end with CR, or it does but is longer. -/
theorem cont_good {s : Rd} {dest : Bytes} (hw : s.Wf) (hok : s.ok = true) (h0 : 0 < s.avail) (hm : LF ∉ s.buffer)
    (hl : o.newline = .crLfOrLf → s.rest[s.avail - 1]? ≠ some CR) : StepGood o s dest (.cont s s.avail) := by
  refine ⟨rfl, rfl, hok, hw, h0, Nat.le_refl _, hm, ?_⟩
  intro h1 h2
  exact absurd (by rw [← buffer_last hw h0]; exact h2) (hl h1)

theorem cont_good_cr {s : Rd} {dest : Bytes} (hw : s.Wf) (hok : s.ok = true) (h1 : 1 < s.avail) (hm : LF ∉ s.buffer)
    (hl : s.rest[s.avail - 1]? = some CR) : StepGood o s dest (.cont s (s.avail - 1)) := by
  refine ⟨rfl, rfl, hok, hw, by omega, by omega, ?_, ?_⟩
  · intro h; apply hm
    unfold buffer
    exact (List.take_subset_take_left s.rest (by omega : s.avail - 1 ≤ s.avail)) h
  · intro _ _
    rw [List.head?_drop, hl]
    decide

theorem scanCrLf_good {s : Rd} {dest : Bytes} (hw : s.Wf) (hok : s.ok = true) (h0 : 0 < s.avail)
    (hm : o.newline = .crLfOrLf) : ∃ x, scanCrLf o dest s (memchr LF s.buffer) = some x ∧ StepGood o s dest x := by
  have found : ∀ (s : Rd), s.Wf → s.ok = true → ∀ i, memchr LF s.buffer = some i →
      ∃ x, (if i > 0 ∧ s.rest[i - 1]? = some CR then some (Step.done (foundNewline s dest o (i - 1) 2))
        else some (.done (foundNewline s dest o i 1))) = some x ∧ StepGood o s dest x := by
    intro s hw hok i hf
    obtain ⟨p, q, e, h1, h2⟩ := memchr_some hf
    have := foundLf_good (dest := dest) (q := q ++ s.rest.drop s.avail) hw hok hm
      (rest_found e) h1 h2
    by_cases hc : i > 0 ∧ s.rest[i - 1]? = some CR
    · rw [if_pos hc] at this ⊢; exact ⟨_, rfl, this⟩
    · rw [if_neg hc] at this ⊢; exact ⟨_, rfl, this⟩
  cases hf : memchr LF s.buffer with
  | some i =>
    rw [scanCrLf]
    exact found s hw hok i hf
  | none =>
    have hnl := memchr_none hf
    rw [scanCrLf]
    by_cases hl : s.rest[s.avail - 1]? = some CR
    · rw [if_neg (by simpa using hl)]
      by_cases h1 : s.avail - 1 > 0
      · rw [if_pos h1]
        exact ⟨_, rfl, cont_good_cr hw hok (by omega) hnl hl⟩
      · rw [if_neg h1]
        have ha : s.avail = 1 := by omega
        rw [ha] at hl
        rcases pull_cases (n := 2) hw hok with ⟨h2, s', e, er, ef, eo, ew, ea, _⟩ | ⟨h2, s', e, er, ef, eo, ew, ea⟩
        · rw [e]
          simp only
          obtain ⟨b, r, hr⟩ : ∃ b r, s.rest = CR :: b :: r := by
            cases hr : s.rest with
            | nil => rw [hr] at h2; simp at h2
            | cons a t =>
              cases t with
              | nil => rw [hr] at h2; simp at h2
              | cons b r =>
                rw [hr] at hl; simp at hl
                exact ⟨b, r, by rw [hl]⟩
          by_cases hb : b = LF
          · subst hb
            rw [if_pos (by rw [er, hr]; rfl)]
            refine ⟨_, rfl, ?_⟩
            refine StepGood.congr ?_ er ef
            refine foundNewline_good ew eo (l := []) (t := [CR, LF]) (q := r) ?_ (by rw [er, hr]; rfl) (by simp) rfl rfl
            rw [er, hr, splitLine, if_neg (by decide), if_pos ⟨hm, rfl, rfl⟩]; rfl
          · rw [if_neg (by rw [er, hr]; simpa using hb)]
            -- the second round
            have hbuf : s'.buffer = CR :: b :: s'.buffer.drop 2 := by
              obtain ⟨k, hk⟩ : ∃ k, s'.avail = k + 2 := ⟨s'.avail - 2, by omega⟩
              unfold Rd.buffer
              rw [er, hr, hk]
              simp
            have hmc : (memchr LF (s'.buffer.drop 2)).map (· + 2) = memchr LF s'.buffer := by
              conv => rhs; rw [hbuf]
              rw [memchr, if_neg (by decide), memchr, if_neg hb]
              cases memchr LF (s'.buffer.drop 2) <;> simp
            rw [hmc]
            have h3 : ∃ x, scanCrLf o dest s' (memchr LF s'.buffer) = some x ∧ StepGood o s' dest x := by
              cases hf' : memchr LF s'.buffer with
              | some i => rw [scanCrLf]; exact found s' ew eo i hf'
              | none =>
                have hnl' := memchr_none hf'
                rw [scanCrLf]
                by_cases hl' : s'.rest[s'.avail - 1]? = some CR
                · rw [if_neg (by simpa using hl'), if_pos (by omega)]
                  exact ⟨_, rfl, cont_good_cr ew eo (by omega) hnl' hl'⟩
                · rw [if_pos hl']
                  exact ⟨_, rfl, cont_good ew eo (by omega) hnl' (fun _ => hl')⟩
            obtain ⟨x, h4, h5⟩ := h3
            exact ⟨x, h4, h5.congr er ef⟩
        · rw [e]
          simp only
          have hr : s.rest = [CR] := by
            cases hr : s.rest with
            | nil => rw [hr] at hl; simp at hl
            | cons a t =>
              cases t with
              | nil => rw [hr] at hl; simp at hl; rw [hl]
              | cons b r => rw [hr] at h2; simp only [List.length_cons] at h2; omega
          have hsp : splitLine o.newline s'.rest = ([CR], [], []) := by rw [er, hr]; exact split_none (by decide)
          have hne : s'.rest ≠ [] := by rw [er, hr]; simp
          have hlen : (if o.keepNewline = true then [CR] ++ [] else [CR] : Bytes).length = 1 := by split <;> rfl
          by_cases hmx : o.maxLength < 1
          · rw [if_pos hmx]
            refine ⟨_, rfl, StepGood.congr ?_ er ef⟩
            exact failMax_good ew hne (by rw [hsp]; simp only; rw [hlen]; omega)
          · rw [if_neg hmx]
            refine ⟨_, rfl, StepGood.congr (s' := s') ?_ er ef⟩
            have he : expected o s'.fails s'.rest = (!s'.fails, [CR], [], !s'.fails) := by
              unfold expected; rw [if_neg hne]; simp only; rw [hsp]; simp only; rw [hlen, if_neg (by omega)]
              cases o.keepNewline <;> rfl
            refine ⟨by rw [he, eo, ef], by rw [he]; show dest ++ s'.rest.take 1 = _; rw [er, hr]; rfl,
              by rw [he]; show s'.rest.drop 1 = _; rw [er, hr]; rfl, by rw [he]; show s'.ok = _; rw [eo, ef],
              wf_advance ew, rfl⟩
    · rw [if_pos hl]
      exact ⟨_, rfl, cont_good hw hok h0 hnl (fun _ => hl)⟩

theorem scan_good {s : Rd} {dest : Bytes} (hw : s.Wf) (hok : s.ok = true) (h0 : 0 < s.avail) :
    ∃ x, scan o dest s = some x ∧ StepGood o s dest x := by
  unfold scan
  cases hm : o.newline with
  | lf =>
    simp only
    cases hf : memchr LF s.buffer with
    | some i =>
      obtain ⟨p, q, e, h1, h2⟩ := memchr_some hf
      refine ⟨_, rfl, ?_⟩
      have hr := rest_found e
      refine foundNewline_good (l := p) (t := [LF]) (q := q ++ s.rest.drop s.avail) hw hok ?_ (by rw [List.append_assoc]; exact hr)
        (by simp) h2 rfl
      rw [hr, hm, split_found h1, if_neg (by simp), ← hr]
    | none => exact ⟨_, rfl, cont_good hw hok h0 (memchr_none hf) (by rw [hm]; simp)⟩
  | crLfOrLf => exact scanCrLf_good hw hok h0 hm

/-- A prefix without a line terminator has been read. -/
theorem expected_prefix {fails : Bool} {p r : Bytes} (hp0 : p ≠ []) (hp : LF ∉ p)
    (hc : o.newline = .crLfOrLf → p.getLast? = some CR → r.head? ≠ some LF) (hl : p.length ≤ o.maxLength)
    (hr : r ≠ []) :
    expected o fails (p ++ r) =
      let e := expected { o with maxLength := o.maxLength - p.length } fails r
      (e.1, p ++ e.2.1, e.2.2) := by
  unfold expected
  rw [if_neg (by simp [hp0]), if_neg hr, split_prefix hp hc]
  simp only
  have hd : (p ++ r).drop o.maxLength = r.drop (o.maxLength - p.length) := by
    rw [List.drop_append, List.drop_eq_nil_of_le hl, List.nil_append]
  have ht : (p ++ r).take o.maxLength = p ++ r.take (o.maxLength - p.length) := by
    rw [List.take_append, List.take_of_length_le hl]
  rw [ht, hd]
  generalize splitLine o.newline r = x
  obtain ⟨l, t, q⟩ := x
  generalize o.keepNewline = kb
  cases kb
  · simp only [Bool.false_eq_true, if_false, List.length_append]
    by_cases h : p.length + l.length > o.maxLength
    · have h' : l.length > o.maxLength - p.length := by omega
      simp only [if_pos h, if_pos h']
    · have h' : ¬ l.length > o.maxLength - p.length := by omega
      simp only [if_neg h, if_neg h']
      by_cases h2 : t = []
      · simp only [if_pos h2]
      · simp only [if_neg h2]
  · simp only [if_true, List.length_append]
    by_cases h : p.length + l.length + t.length > o.maxLength
    · have h' : l.length + t.length > o.maxLength - p.length := by omega
      simp only [if_pos h, if_pos h']
    · have h' : ¬ l.length + t.length > o.maxLength - p.length := by omega
      simp only [if_neg h, if_neg h']
      by_cases h2 : t = []
      · simp only [if_pos h2, List.append_assoc]
      · simp only [if_neg h2, List.append_assoc]

theorem internalLoop_good : ∀ (k : Nat) {o : Opts} {s : Rd} {dest : Bytes}, s.rest.length = k → s.Wf → s.ok = true →
    0 < s.avail → ∃ r, internalLoop o dest s = some r ∧ Good o s dest r := by
  intro k
  induction k using Nat.strongRecOn with
  | _ k ih =>
    intro o s dest hk hw hok h0
    obtain ⟨x, hx, hg⟩ := scan_good (o := o) (dest := dest) hw hok h0
    rw [internalLoop, hx]
    cases x with
    | done r => exact ⟨r, rfl, hg⟩
    | cont s' length =>
      obtain ⟨er, ef, eo, ew, h1, h2, h3, h4⟩ := hg
      have hlen : length ≤ s.rest.length := by rw [← er]; exact Nat.le_trans h2 ew
      have hpl : (s.rest.take length).length = length := by rw [List.length_take]; omega
      have hne : s.rest.take length ≠ [] := by intro h; rw [h] at hpl; simp at hpl; omega
      have hrest : s.rest = s.rest.take length ++ s.rest.drop length := (List.take_append_drop _ _).symm
      simp only
      by_cases hmx : length > o.maxLength
      · rw [if_pos hmx]
        refine ⟨_, rfl, Good.congr (s' := s') ?_ er ef⟩
        refine failMax_good ew (by rw [er]; intro h; rw [h] at hne; simp at hne) ?_
        have : (splitLine o.newline s'.rest).1 = s.rest.take length ++ (splitLine o.newline (s.rest.drop length)).1 := by
          rw [er]
          conv => lhs; rw [hrest]
          rw [split_prefix h3 h4]
        rw [this]
        split <;> simp only [List.length_append, hpl] <;> omega
      · rw [if_neg hmx]
        have haw : (s'.advance length).Wf := wf_advance ew
        rcases pull_cases (n := 1) haw (by exact eo) with ⟨h5, s2, e, er2, ef2, eo2, ew2, ea2, _⟩ | ⟨h5, s2, e, er2, ef2, eo2, ew2, ea2⟩
        · rw [e]
          simp only
          have hr2 : s2.rest = s.rest.drop length := by rw [er2]; show s'.rest.drop length = _; rw [er]
          have hlen2 : s2.rest.length < k := by rw [hr2, List.length_drop]; omega
          obtain ⟨r, e3, g⟩ := ih _ hlen2 (o := { o with maxLength := o.maxLength - length })
            (dest := dest ++ s'.rest.take length) rfl ew2 eo2 (by omega)
          refine ⟨r, e3, ?_⟩
          have hfl : s2.fails = s.fails := by rw [ef2]; exact ef
          have hrne : s.rest.drop length ≠ [] := by
            intro h
            have : s2.rest.length = 0 := by rw [hr2, h]; rfl
            have := ew2; unfold Rd.Wf at this; omega
          have he := expected_prefix (o := o) (fails := s.fails) hne h3 h4 (by rw [hpl]; omega) hrne
          rw [← hrest, hpl] at he
          obtain ⟨a, b, c, d, w, f⟩ := g
          rw [hr2, hfl] at a b c d
          simp only at he
          refine ⟨by rw [he]; exact a, ?_, by rw [he]; exact c, by rw [he]; exact d, w, by rw [f, hfl]⟩
          rw [he, b, er]; simp
        · rw [e]
          simp only
          have h6 : s.rest.drop length = [] := by
            apply List.eq_nil_of_length_eq_zero
            have : (s'.advance length).rest.length < 1 := h5
            simp only [advance_rest, er] at this
            omega
          have h7 : s.rest.take length = s.rest := by rw [h6, List.append_nil] at hrest; exact hrest.symm
          rw [h7] at h3 hpl
          have hsp : splitLine o.newline s.rest = (s.rest, [], []) := split_none h3
          have he : expected o s.fails s.rest = (!s.fails, s.rest, [], !s.fails) := by
            unfold expected; rw [if_neg (by rw [← h7]; exact hne)]; simp only; rw [hsp]; simp only
            rw [List.append_nil, ite_self, if_neg (by omega)]; rfl
          have hok2 : s2.ok = !s.fails := by rw [eo2]; show (!s'.fails) = _; rw [ef]
          refine ⟨_, rfl, by rw [he]; exact hok2, by rw [he, er, h7], ?_, by rw [he]; exact hok2, ew2, ?_⟩
          · rw [he]; show s2.rest = []; rw [er2]; show s'.rest.drop length = []; rw [er, h6]
          · show s2.fails = _; rw [ef2]; exact ef

theorem expected_nil {fails : Bool} : expected o fails [] = (false, [], [], !fails) := by unfold expected; rw [if_pos rfl]

theorem pull_fail_good {s : Rd} (hw : s.Wf) (hok : s.ok = true) {s' : Rd} (e : s.pull 1 = (false, s')) :
    Good o s [] ⟨false, [], s'⟩ := by
  rcases pull_cases (n := 1) hw hok with ⟨h, s2, e2, _⟩ | ⟨h, s2, e2, er, ef, eo, ew, ea⟩
  · rw [e] at e2; cases e2
  · rw [e] at e2; cases e2
    have hr : s.rest = [] := List.eq_nil_of_length_eq_zero (by omega)
    refine ⟨?_, ?_, ?_, ?_, ew, ef⟩ <;> rw [hr, expected_nil]
    · rfl
    · show s'.rest = _; rw [er, hr]
    · exact eo

theorem readLine_good {s : Rd} (hw : s.Wf) (hok : s.ok = true) : ∃ r, readLine o s = some r ∧ Good o s [] r := by
  unfold readLine
  rcases pull_cases (n := 1) hw hok with ⟨h, s', e, er, ef, eo, ew, ea, _⟩ | ⟨h, s', e, _⟩
  · rw [e]
    obtain ⟨r, h1, h2⟩ := internalLoop_good _ (o := o) (dest := []) rfl ew eo (by omega)
    exact ⟨r, h1, h2.congr er ef⟩
  · rw [e]
    exact ⟨_, rfl, pull_fail_good hw hok e⟩

/-! ## `absl::string_view` -/

/-- The whole data has been read without finding a line terminator. -/
theorem all_read_good {s : Rd} (hne : s.rest ≠ []) (hw : s.Wf) (hok : s.ok = !s.fails) (ha : s.avail = s.rest.length)
    (hn : LF ∉ s.rest) (hl : s.rest.length ≤ o.maxLength) : Good o s [] ⟨s.ok, s.buffer, s.advance s.avail⟩ := by
  have hsp : splitLine o.newline s.rest = (s.rest, [], []) := split_none hn
  have he : expected o s.fails s.rest = (!s.fails, s.rest, [], !s.fails) := by
    unfold expected; rw [if_neg hne]; simp only; rw [hsp]; simp only
    rw [List.append_nil, ite_self, if_neg (by omega)]; rfl
  refine ⟨by rw [he]; exact hok, ?_, ?_, by rw [he]; exact hok, wf_advance hw, rfl⟩
  · rw [he]; show s.rest.take s.avail = _; rw [ha, List.take_length]; rfl
  · rw [he]; show s.rest.drop s.avail = _; rw [ha, List.drop_length]

theorem too_long_good {s : Rd} (hw : s.Wf) (hne : s.rest ≠ []) {k : Nat} (hk : k ≤ s.rest.length) (hm : k > o.maxLength)
    (hn : LF ∉ s.rest.take k)
    (hc : o.newline = .crLfOrLf → (s.rest.take k).getLast? = some CR → (s.rest.drop k).head? ≠ some LF) :
    Good o s [] (failMax s [] o.maxLength) := by
  refine failMax_good hw hne ?_
  have hpl : (s.rest.take k).length = k := by rw [List.length_take]; omega
  have : (splitLine o.newline s.rest).1 = s.rest.take k ++ (splitLine o.newline (s.rest.drop k)).1 := by
    conv => lhs; rw [← List.take_append_drop k s.rest]
    rw [split_prefix hn hc]
  rw [this]
  split <;> simp only [List.length_append, hpl] <;> omega

theorem memchr_drop_none {s : Rd} {k : Nat} (hk : k ≤ s.avail) (hn : LF ∉ s.rest.take k)
    (h : memchr LF (s.buffer.drop k) = none) : LF ∉ s.buffer := by
  have h1 := memchr_none h
  have h2 : s.buffer = s.rest.take k ++ s.buffer.drop k := by
    conv => lhs; rw [← List.take_append_drop k s.buffer]
    congr 1
    unfold Rd.buffer
    rw [List.take_take, Nat.min_eq_left hk]
  rw [h2]
  simp only [List.mem_append, not_or]
  exact ⟨hn, h1⟩

theorem memchr_drop_some {s : Rd} {k i : Nat} (hw : s.Wf) (hk : k ≤ s.avail) (hn : LF ∉ s.rest.take k)
    (h : memchr LF (s.buffer.drop k) = some i) :
    ∃ p q, s.rest = p ++ LF :: q ∧ LF ∉ p ∧ p.length = k + i := by
  obtain ⟨p, q, e, h1, h2⟩ := memchr_some h
  have h3 : s.buffer = s.rest.take k ++ s.buffer.drop k := by
    conv => lhs; rw [← List.take_append_drop k s.buffer]
    congr 1
    unfold Rd.buffer
    rw [List.take_take, Nat.min_eq_left hk]
  rw [e, ← List.append_assoc] at h3
  refine ⟨s.rest.take k ++ p, _, rest_found h3, ?_, ?_⟩
  · simp only [List.mem_append, not_or]; exact ⟨hn, h1⟩
  · rw [List.length_append, h2, List.length_take]; unfold Rd.Wf at hw; omega

theorem viewCrLf_good (hm : o.newline = .crLfOrLf) : ∀ (k : Nat) {s : Rd} {length : Nat}, s.rest.length - s.avail = k →
    s.Wf → s.ok = true → 0 < s.avail → length ≤ s.avail → LF ∉ s.rest.take length →
    ∃ x, viewCrLf o s length = some x ∧ StepGood o s [] x ∧ (∀ s' l, x = .cont s' l → l = s'.avail ∧ s.avail ≤ s'.avail) := by
  intro k
  induction k using Nat.strongRecOn with
  | _ k ih =>
    intro s length hk hw hok h0 hl hn
    rw [viewCrLf]
    cases hf : memchr LF (s.buffer.drop length) with
    | some i =>
      obtain ⟨p, q, e, h1, h2⟩ := memchr_drop_some hw hl hn hf
      have := foundLf_good (dest := []) hw hok hm e h1 h2
      simp only
      by_cases hc : length + i > 0 ∧ s.rest[length + i - 1]? = some CR
      · rw [if_pos hc] at this ⊢; exact ⟨_, rfl, this, by intro _ _ h; cases h⟩
      · rw [if_neg hc] at this ⊢; exact ⟨_, rfl, this, by intro _ _ h; cases h⟩
    | none =>
      have hnl := memchr_drop_none hl hn hf
      simp only
      by_cases hcr : s.rest[s.avail - 1]? = some CR
      · rw [if_neg (by simpa using hcr)]
        have hne : s.rest ≠ [] := by intro h; rw [h] at hcr; simp at hcr
        have hav : s.avail ≤ s.rest.length := hw
        have hn1 : LF ∉ s.rest.take (s.avail - 1) := fun h =>
          hnl ((List.take_subset_take_left s.rest (by omega : s.avail - 1 ≤ s.avail)) h)
        have hh1 : (s.rest.drop (s.avail - 1)).head? ≠ some LF := by rw [List.head?_drop, hcr]; decide
        by_cases hmx : s.avail - 1 > o.maxLength
        · rw [if_pos hmx]
          exact ⟨_, rfl, too_long_good hw hne (by omega) hmx hn1 (fun _ _ => hh1), by intro _ _ h; cases h⟩
        · rw [if_neg hmx]
          rcases pull_cases (n := s.avail - 1 + 2) hw hok with
            ⟨h2, s', e, er, ef, eo, ew, ea, _⟩ | ⟨h2, s', e, er, ef, eo, ew, ea⟩
          · rw [e]
            simp only
            have hav' : s'.avail ≤ s.rest.length := by rw [← er]; exact ew
            -- the buffer consists of `p`, CR
            have hb : s.rest.take (s.avail - 1 + 1) = s.rest.take (s.avail - 1) ++ [CR] := by
              rw [List.take_add_one, hcr]; rfl
            by_cases hlf : s'.rest[s.avail - 1 + 1]? = some LF
            · rw [if_pos hlf]
              refine ⟨_, rfl, StepGood.congr (s' := s') ?_ er ef, by intro _ _ h; cases h⟩
              have hlf' : s.rest[s.avail - 1 + 1]? = some LF := by rw [← er]; exact hlf
              have hr : s.rest = s.rest.take (s.avail - 1) ++ [CR, LF] ++ s.rest.drop (s.avail - 1 + 2) := by
                conv => lhs; rw [← List.take_append_drop (s.avail - 1 + 2) s.rest]
                congr 1
                rw [show s.avail - 1 + 2 = (s.avail - 1 + 1) + 1 by omega, List.take_add_one, hlf', hb]; simp
              refine foundNewline_good (l := s.rest.take (s.avail - 1)) (t := [CR, LF])
                (q := s.rest.drop (s.avail - 1 + 2)) ew eo ?_ (by rw [er]; exact hr) (by simp) ?_ rfl
              · rw [er, hm]
                conv => lhs; rw [hr, show s.rest.take (s.avail - 1) ++ [CR, LF] ++ s.rest.drop (s.avail - 1 + 2) =
                  (s.rest.take (s.avail - 1) ++ [CR]) ++ LF :: s.rest.drop (s.avail - 1 + 2) by simp]
                rw [split_found, if_pos ⟨rfl, by simp⟩, List.dropLast_concat]
                simp only [List.mem_append, not_or]
                exact ⟨hn1, by decide⟩
              · rw [List.length_take]; omega
            · rw [if_neg hlf]
              have hn2 : LF ∉ s'.rest.take (s.avail - 1 + 2) := by
                rw [er, show s.avail - 1 + 2 = (s.avail - 1 + 1) + 1 by omega, List.take_add_one, hb]
                simp only [List.mem_append, not_or]
                refine ⟨⟨hn1, by decide⟩, ?_⟩
                intro h
                rw [Option.mem_toList] at h
                exact hlf (by rw [er]; exact h)
              obtain ⟨x, h3, h4, h5⟩ := ih (s'.rest.length - s'.avail) (by rw [er]; omega) rfl ew eo (by omega)
                (by omega) hn2
              exact ⟨x, h3, h4.congr er ef, fun s2 l h => ⟨(h5 s2 l h).1, by have := (h5 s2 l h).2; omega⟩⟩
          · rw [e]
            simp only
            have hfull : s.avail = s.rest.length := by omega
            have hnr : LF ∉ s'.rest := by
              rw [er]; intro h; apply hnl
              unfold Rd.buffer; rw [hfull, List.take_length]; exact h
            have hne' : s'.rest ≠ [] := by rw [er]; exact hne
            have ha' : s'.avail = s'.rest.length := by rw [ea, er]
            have hok' : s'.ok = !s'.fails := by rw [eo, ef]
            by_cases hmx2 : s'.avail > o.maxLength
            · rw [if_pos hmx2]
              refine ⟨_, rfl, StepGood.congr (s' := s') ?_ er ef, by intro _ _ h; cases h⟩
              refine too_long_good ew hne' (k := s'.avail) ew hmx2 ?_ ?_
              · rw [ha', List.take_length]; exact hnr
              · intro _ _; rw [ha', List.drop_length]; simp
            · rw [if_neg hmx2]
              refine ⟨_, rfl, StepGood.congr (s' := s') ?_ er ef, by intro _ _ h; cases h⟩
              exact all_read_good hne' ew hok' ha' hnr (by omega)
      · rw [if_pos hcr]
        exact ⟨_, rfl, cont_good hw hok h0 hnl (fun _ => hcr), by intro _ _ h; cases h; exact ⟨rfl, Nat.le_refl _⟩⟩

theorem viewScan_good {s : Rd} {length : Nat} (hw : s.Wf) (hok : s.ok = true) (h0 : 0 < s.avail) (hl : length ≤ s.avail)
    (hn : LF ∉ s.rest.take length) :
    ∃ x, viewScan o s length = some x ∧ StepGood o s [] x ∧ (∀ s' l, x = .cont s' l → l = s'.avail ∧ s.avail ≤ s'.avail) := by
  unfold viewScan
  cases hm : o.newline with
  | lf =>
    simp only
    cases hf : memchr LF (s.buffer.drop length) with
    | some i =>
      obtain ⟨p, q, e, h1, h2⟩ := memchr_drop_some hw hl hn hf
      refine ⟨_, rfl, ?_, by intro _ _ h; cases h⟩
      refine foundNewline_good (l := p) (t := [LF]) (q := q) hw hok ?_ (by rw [e]; simp) (by simp) h2 rfl
      rw [e, hm, split_found h1, if_neg (by simp)]
    | none =>
      exact ⟨_, rfl, cont_good hw hok h0 (memchr_drop_none hl hn hf) (by rw [hm]; simp), by intro _ _ h; cases h; exact ⟨rfl, Nat.le_refl _⟩⟩
  | crLfOrLf => exact viewCrLf_good hm _ rfl hw hok h0 hl hn

theorem viewLoop_good : ∀ (k : Nat) {s : Rd} {length : Nat}, s.rest.length - length = k → s.Wf → s.ok = true →
    length < s.avail → LF ∉ s.rest.take length → ∃ r, viewLoop o s length = some r ∧ Good o s [] r := by
  intro k
  induction k using Nat.strongRecOn with
  | _ k ih =>
    intro s length hk hw hok hl hn
    obtain ⟨x, hx, hg, hlen⟩ := viewScan_good (o := o) hw hok (by omega) (Nat.le_of_lt hl) hn
    rw [viewLoop, hx]
    cases x with
    | done r => exact ⟨r, rfl, hg⟩
    | cont s' l =>
      obtain ⟨er, ef, eo, ew, h1, h2, h3, h4⟩ := hg
      obtain ⟨hl', hl2⟩ := hlen s' l rfl
      have hav : s'.avail ≤ s.rest.length := by rw [← er]; exact ew
      have hne : s'.rest ≠ [] := by intro h; rw [er] at h; rw [h] at hav; simp at hav; omega
      simp only
      by_cases hmx : l > o.maxLength
      · rw [if_pos hmx]
        exact ⟨_, rfl, Good.congr (s' := s') (too_long_good ew hne (by rw [er]; omega) hmx (by rw [er]; exact h3)
          (by rw [er]; exact h4)) er ef⟩
      · rw [if_neg hmx]
        rcases pull_cases (n := l + 1) ew eo with ⟨h5, s2, e, er2, ef2, eo2, ew2, ea2, _⟩ | ⟨h5, s2, e, er2, ef2, eo2, ew2, ea2⟩
        · rw [e]
          simp only
          obtain ⟨r, h6, h7⟩ := ih (s2.rest.length - l) (by rw [er2, er]; rw [er] at h5; omega) (s := s2) (length := l) rfl ew2 eo2
            (by omega) (by rw [er2, er]; exact h3)
          exact ⟨r, h6, Good.congr (Good.congr h7 er2 ef2) er ef⟩
        · rw [e]
          simp only
          have hfull : l = s.rest.length := by rw [er] at h5; omega
          refine ⟨_, rfl, Good.congr (Good.congr (s' := s2) ?_ er2 ef2) er ef⟩
          refine all_read_good (by rw [er2]; exact hne) ew2 (by rw [eo2, ef2]) (by rw [ea2, er2]) ?_ ?_
          · rw [er2, er]; rw [hfull, List.take_length] at h3; exact h3
          · rw [er2, er, ← hfull]; omega

theorem readLineView_good {s : Rd} (hw : s.Wf) (hok : s.ok = true) : ∃ r, readLineView o s = some r ∧ Good o s [] r := by
  unfold readLineView
  rcases pull_cases (n := 1) hw hok with ⟨h, s', e, er, ef, eo, ew, ea, _⟩ | ⟨h, s', e, _⟩
  · rw [e]
    obtain ⟨r, h1, h2⟩ := viewLoop_good _ (o := o) (s := s') (length := 0) rfl ew eo (by omega) (by simp)
    exact ⟨r, h1, h2.congr er ef⟩
  · rw [e]
    exact ⟨_, rfl, pull_fail_good hw hok e⟩

end Lines
end Riegeli
