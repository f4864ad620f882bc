import Verif.CsvGrammar
/-!
# `HasNextRecord()`
-/
namespace Riegeli
namespace Csv
open Lines Rd

variable {o : ROpts} {fails : Bool}

/-- What `HasNextRecord()` does, given what `ReadRecord()` would do. -/
def HGood (o : ROpts) (fails : Bool) (p : Out) : Bool → Option Err → St → Prop
  | true, e, s => e = none ∧ SGood fails s ∧ pRecord o fails s.src.rest s.line = p ∧ p.1 ≠ .eof
  | false, some e, _ => e = .source ∧ p = failOut .source
  | false, none, _ => p.1 = .eof ∨ p = failOut .crNoLf

theorem pRecord_cons (hmf : 1 ≤ o.maxFields) (b : UInt8) (r : Bytes) (line : Nat) : pRecord o fails (b :: r) line =
    (pStep o fails [] [] (b :: r) line line).go o fails := by
  unfold pRecord pNextRecord pNextField
  rw [if_neg (by simp), if_neg (by simp; omega)]
  simp only [PStep.go]
  rw [pRun_eq]; rfl

theorem pRecord_nil (hst : o.standalone = false) (line : Nat) : pRecord o fails [] line =
    if fails then failOut .source else (.eof, [], line, line) := by
  unfold pRecord pNextRecord
  rw [if_pos ⟨hst, rfl⟩]; cases fails <;> rfl

theorem pRecord_not_eof (hv : o.valid = true) (hst : o.standalone = false) {b : UInt8} {r : Bytes} {line : Nat}
    (h1 : cls o b ≠ .comment) (h2 : (cls o b = .lf ∨ cls o b = .cr) → o.skipEmptyLines = false) :
    (pRecord o fails (b :: r) line).1 ≠ .eof := by
  intro h
  have hp : pRecord o fails (b :: r) line = (.eof, (pRecord o fails (b :: r) line).2.1, (pRecord o fails (b :: r) line).2.2.1,
      (pRecord o fails (b :: r) line).2.2.2) := by rw [← h]
  obtain ⟨⟨sk, tl, e, hs, ht⟩, _, _⟩ := pRecord_eof_sound hv hst hp
  have c := cls_iff hv b
  cases hs with
  | nil =>
    rw [List.nil_append] at e
    rcases ht with rfl | ⟨c', l, hc, rfl, _⟩
    · cases e
    · cases e; exact h1 (c.2.2.2.1.2 hc)
  | comment hc _ _ => rw [List.cons_append, List.cons.injEq] at e; rw [← e.1] at hc; exact h1 (c.2.2.2.1.2 hc)
  | lf hse _ => rw [List.cons_append, List.cons.injEq] at e; rw [h2 (.inl (c.2.2.2.2.2.1.2 e.1))] at hse; cases hse
  | crLf hse _ => rw [List.cons_append, List.cons.injEq] at e; rw [h2 (.inr (c.2.2.2.2.1.2 e.1))] at hse; cases hse

theorem hasNext_good (hv : o.valid = true) (hst : o.standalone = false) (hmf : 1 ≤ o.maxFields) : ∀ (k : Nat) {s : St},
    s.src.rest.length = k → s.src.Wf → s.src.fails = fails →
    (s.src.ok = true ∨ fails = true ∧ s.src.ok = false ∧ s.src.rest = [] ∧ s.src.avail = 0) →
    ∃ b e s', hasNextRecord o s = some (b, e, s') ∧ HGood o fails (pRecord o fails s.src.rest s.line) b e s' := by
  intro k
  induction k using Nat.strongRecOn with
  | _ k ih =>
    intro s hk hw hf hok
    subst hk
    rw [hasNextRecord.eq_def]
    simp only
    rcases Or.symm hok with ⟨hfl, hok, hr, ha⟩ | hok
    · have : s.src.pull 1 = (false, s.src) := by unfold pull; rw [if_neg (by omega), if_pos hok]
      rw [this]
      simp only
      rw [hok]
      refine ⟨_, _, _, rfl, ?_⟩
      rw [hr, pRecord_nil hst, hfl]
      exact ⟨rfl, rfl⟩
    · rcases pull_now hw hok hf with ⟨src, e, hr, hr', hw', hf', ho'⟩ | ⟨src, b, r, e, hr, hr', hw', ho', hf', ha'⟩
      · rw [e]
        simp only
        refine ⟨_, _, _, rfl, ?_⟩
        rw [hr, pRecord_nil hst, ho']
        cases fails with
        | true => exact ⟨rfl, rfl⟩
        | false => exact .inl rfl
      · rw [e]
        simp only
        rw [hr', List.getElem?_cons_zero]
        simp only
        have hlen : r.length < s.src.rest.length := by rw [hr]; simp
        have hgood : ∀ n : Nat, SGood fails ({ s with last := n, src := src } : St) := fun n => ⟨hw', ho', hf'⟩
        have ctrue : cls o b ≠ .comment → ((cls o b = .lf ∨ cls o b = .cr) → o.skipEmptyLines = false) →
            HGood o fails (pRecord o fails s.src.rest s.line) true none { s with last := s.line, src := src } := by
          intro h1 h2
          refine ⟨rfl, hgood _, ?_, ?_⟩
          · show pRecord o fails src.rest s.line = _
            rw [hr', hr]
          · rw [hr]; exact pRecord_not_eof hv hst h1 h2
        cases hc : cls o b with
        | other => exact ⟨_, _, _, rfl, ctrue (by rw [hc]; simp) (by rw [hc]; simp)⟩
        | sep => exact ⟨_, _, _, rfl, ctrue (by rw [hc]; simp) (by rw [hc]; simp)⟩
        | quote => exact ⟨_, _, _, rfl, ctrue (by rw [hc]; simp) (by rw [hc]; simp)⟩
        | escape => exact ⟨_, _, _, rfl, ctrue (by rw [hc]; simp) (by rw [hc]; simp)⟩
        | lf =>
          simp only
          by_cases hse : o.skipEmptyLines = true
          · rw [if_pos hse]
            obtain ⟨b', e', s', h1, h2⟩ := ih r.length hlen (s := { s with last := s.line, src := src.advance 1, line := s.line + 1 })
              (by simp [hr']) (wf_advance hw') hf' (.inl ho')
            refine ⟨b', e', s', h1, ?_⟩
            have : pRecord o fails s.src.rest s.line = pRecord o fails r (s.line + 1) := by
              rw [hr, pRecord_cons hmf, pStep_eq (by simp), hc]
              simp only [pEndLine, hse, List.isEmpty_nil, Bool.and_self, if_true]
              rfl
            rw [this]
            simpa [hr'] using h2
          · rw [if_neg hse]
            exact ⟨_, _, _, rfl, ctrue (by rw [hc]; simp) (fun _ => by simpa using hse)⟩
        | comment =>
          simp only
          have hblf : b ≠ LF := ((valid_cases hv).1 b ((cls_iff hv b).2.2.2.1.1 hc)).1
          obtain ⟨s1, h1, h2, h3, h4, h5, h6⟩ := skipLine_good _ (s := { s with last := s.line, src := src }) (i := 0) rfl (hgood _)
            (Nat.zero_le _) (by simp)
          rw [h1]
          simp only
          rw [List.drop_zero] at h4
          have h4' : s1.src.rest = pSkip r := by
            rw [h4]; show pSkip src.rest = _; rw [hr', pSkip, if_neg hblf]
          obtain ⟨b', e', s', g1, g2⟩ := ih (pSkip r).length (by have := pSkip_length r; omega) (s := s1)
            (by rw [h4']) h2 h3 h6
          refine ⟨b', e', s', g1, ?_⟩
          have : pRecord o fails s.src.rest s.line = pRecord o fails s1.src.rest s1.line := by
            rw [hr, pRecord_cons hmf, pStep_eq (by simp), hc, h5, h4']
            simp only [List.isEmpty_nil, Bool.and_self, if_true]
            rfl
          rw [this]; exact g2
        | cr =>
          simp only
          have hp : ∀ q, pRecord o fails (b :: q) s.line =
              (pAfterCr fails q fun r => pEndLine o fails [] [] r s.line s.line).go o fails := by
            intro q
            rw [pRecord_cons hmf, pStep_eq (by simp), hc]
          rcases pull_after (j := 1) hw' ho' hf' with ⟨src2, e2, hr2, hr2', hw2, hf2, ho2⟩ | ⟨src2, c, r2, e2, hr2, hr2', hw2, ho2, hf2, ha2⟩
          · rw [e2]
            simp only
            rw [hr'] at hr2
            simp only [List.drop_succ_cons, List.drop_zero] at hr2
            refine ⟨_, _, _, rfl, ?_⟩
            rw [ho2, hr, hp, hr2]
            cases fails with
            | true => exact ⟨rfl, rfl⟩
            | false => exact .inr rfl
          · rw [e2]
            simp only
            rw [hr'] at hr2
            simp only [List.drop_succ_cons, List.drop_zero] at hr2
            rw [hr2', List.getElem?_cons_zero]
            by_cases hcl : c = LF
            · subst hcl
              rw [if_neg (by simp)]
              have hpl : ∀ q line, pRecord o fails (LF :: q) line = (pEndLine o fails [] [] q line line).go o fails := by
                intro q line
                rw [pRecord_cons hmf, pStep_eq (by simp), (cls_iff hv LF).2.2.2.2.2.1.2 rfl]
              have hpe : pRecord o fails s.src.rest s.line = (pEndLine o fails [] [] r2 s.line s.line).go o fails := by
                rw [hr, hp, hr2]; rfl
              by_cases hse : o.skipEmptyLines = true
              · rw [if_pos hse]
                obtain ⟨b', e', s', h1, h2⟩ := ih r2.length (by rw [hr, hr2]; simp; omega)
                  (s := { s with last := s.line, src := src2.advance 1, line := s.line + 1 })
                  (by simp [hr2']) (wf_advance hw2) hf2 (.inl ho2)
                refine ⟨b', e', s', h1, ?_⟩
                have : pRecord o fails s.src.rest s.line = pRecord o fails r2 (s.line + 1) := by
                  rw [hpe]
                  simp only [pEndLine, hse, List.isEmpty_nil, Bool.and_self, if_true]
                  rfl
                rw [this]
                simpa [hr2'] using h2
              · rw [if_neg hse]
                refine ⟨_, _, _, rfl, rfl, ⟨hw2, ho2, hf2⟩, ?_, ?_⟩
                · show pRecord o fails src2.rest s.line = _
                  rw [hr2', hpl, hpe]
                · rw [hr]; exact pRecord_not_eof hv hst (by rw [hc]; simp) (fun _ => by simpa using hse)
            · rw [if_pos (by simp [hcl])]
              refine ⟨_, _, _, rfl, ?_⟩
              right
              rw [hr, hp, hr2]
              simp only [pAfterCr]
              rw [if_pos hcl]; rfl

end Csv
end Riegeli
