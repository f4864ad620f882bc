import Verif.BinarySearch
/-!
# C13: `BinarySearch()`
-/
namespace Riegeli.Props
open Riegeli

/-- **C13.** `BinarySearch(low, high, test)` over integers, with any test function satisfying the documented
precondition: the search terminates, the result is as documented (`SearchContract`); the arguments of `test()` are
all in the range and distinct, after a `less` result only greater ones follow, after a `greater` result only smaller
ones, after an `equivalent` result none (`SearchTrace`); and if any test returned `equivalent` or `greater` then
the result is the argument of the last such test (`SearchLast`). -/
theorem C13_binary_search (test : Nat → POrd) (low high : Nat) (h : OrderedTest (fun _ => True) test low high) :
    ∃ r tr, binarySearch (defaultSearcher (fun p => some (test p))) low high () = some (some r, (), tr) ∧
      SearchContract (fun _ => True) test low high r ∧ SearchTrace (fun _ => True) test low high tr ∧
      SearchLast (fun _ => True) test low tr r := by
  obtain ⟨r, s, tr, h1, _, h2, h3, h4⟩ := binarySearch_spec
    (defaultSearcher_ok (fun p => some (test p)) test (fun p o e => by simpa using e) low high) h (s := ()) trivial
  cases r with
  | none => obtain ⟨_, t, _, hc, _⟩ := h4 rfl; simp at hc
  | some r => exact ⟨r, tr, h1, (h3 r rfl).1, h2, (h3 r rfl).2.1⟩

/-- **C13** (cancelling). If `test()` can also cancel the search then the result is `nullopt` if some call of `test()`
cancelled it, and that call is the last one; otherwise the result is as documented, whatever orderings `T` are
attributed to the positions at which `test()` would cancel. -/
theorem C13_cancelling (test : Nat → Option POrd) (T : Nat → POrd) (hT : ∀ p o, test p = some o → T p = o)
    (low high : Nat) (h : OrderedTest (fun _ => True) T low high) :
    ∃ r tr, binarySearch (defaultSearcher test) low high () = some (r, (), tr) ∧
      SearchTrace (fun _ => True) T low high tr ∧
      match r with
      | none => ∃ pre t, tr = pre ++ [t] ∧ test t = none ∧ ∀ x ∈ pre, test x ≠ none
      | some r => SearchContract (fun _ => True) T low high r ∧ SearchLast (fun _ => True) T low tr r ∧
          ∀ x ∈ tr, test x ≠ none := by
  obtain ⟨r, s, tr, h1, _, h2, h3, h4⟩ := binarySearch_spec (defaultSearcher_ok test T hT low high) h (s := ()) trivial
  refine ⟨r, tr, h1, h2, ?_⟩
  cases r with
  | none => exact h4 rfl
  | some r => exact h3 r rfl

/-- **C13** (custom traits and guides). The same for any traits and any `test()` returning `SearchGuide`, which may
have side effects on a state: if `Middle(low, high)` is an interesting position in the range, absent only if the
range is empty, and `test(p)` provides the next interesting position after `p` when it returns `less` or
`unordered`, then the search terminates with the documented result about the interesting positions, testing only
interesting positions. -/
theorem C13_custom_traits {σ : Type} {S : Searcher σ} {Inv Mid : List Nat → σ → Prop} {I : Nat → Prop} {T : Nat → POrd}
    {N : Nat → Nat} {cancel : Nat → Prop} {low high : Nat} (hS : SearcherOk S Inv Mid I T N cancel low high)
    (hT : OrderedTest I T low high) {s : σ} (hs : Inv [] s) :
    ∃ r s' tr, binarySearch S low high s = some (r, s', tr) ∧ Inv tr s' ∧ SearchTrace I T low high tr ∧
      (∀ res, r = some res → SearchContract I T low high res ∧ SearchLast I T low tr res ∧ ∀ t ∈ tr, ¬ cancel t) ∧
      (r = none → ∃ pre t, tr = pre ++ [t] ∧ cancel t ∧ ∀ x ∈ pre, ¬ cancel x) :=
  binarySearch_spec hS hT hs

/-- A test with unordered positions which meets the precondition: multiples of 3 cannot be compared, the others are
compared with 10. -/
def exampleTest (p : Nat) : POrd :=
  if p % 3 = 0 then .unordered else if p < 10 then .less else if p = 10 then .equivalent else .greater

theorem exampleTest_ordered (low high : Nat) : OrderedTest (fun _ => True) exampleTest low high := by
  intro p q _ _ _ _ _ _
  unfold exampleTest
  refine ⟨?_, ?_, ?_⟩ <;> intro h1 h2 <;> (repeat' split at h1) <;> (repeat' split at h2) <;> simp_all <;> omega

/-- The hypotheses of `C13_binary_search` are met, and its conclusion determines the result of searching from 11 to 20:
the earliest `greater` position is 11, and from 1 to 20 it is the only `equivalent` position. -/
example : (∃ tr, binarySearch (defaultSearcher (fun p => some (exampleTest p))) 1 20 () =
    some (some ⟨.equivalent, 10⟩, (), tr)) := by
  obtain ⟨⟨o, f⟩, tr, h1, h2, _, _⟩ := C13_binary_search exampleTest 1 20 (exampleTest_ordered 1 20)
  refine ⟨tr, ?_⟩
  rw [h1]
  cases o with
  | equivalent =>
    obtain ⟨_, _, _, h3⟩ := h2
    unfold exampleTest at h3
    have : f = 10 := by
      (repeat' split at h3) <;> simp_all
    rw [this]
  | greater => exact absurd (show exampleTest 10 = .equivalent by decide) (h2.2.2.2.2.1 10 trivial (by omega) (by omega))
  | less => exact absurd (show exampleTest 10 = .equivalent by decide) (h2.2.2 10 trivial (by omega) (by omega)).1
  | unordered =>
    have := h2.2 10 trivial (by omega) (by omega)
    exact absurd this (by decide)

end Riegeli.Props
