import Verif.Basic
/-!
# Model of `riegeli/base/binary_search.h`

Positions are natural numbers. `test()` and the traits are given as operations over a state `σ` of the caller
(they can have side effects, for example seeking a reader), which may fail to return (`none`).
-/
namespace Riegeli

/-- `PartialOrdering` (`base/compare.h`). -/
inductive POrd
  | less | equivalent | greater | unordered
deriving DecidableEq, Repr

/-- `SearchResult` (`binary_search.h:48-52`). -/
structure SearchResult where
  ordering : POrd
  found : Nat
deriving DecidableEq, Repr

/-- The parameters of `BinarySearch()`: `traits.Middle`, `traits.Empty`, and `test` returning a `SearchGuide`
(`binary_search.h:79-112`); a `test` which returns an ordering is wrapped by `GetSearchGuide` below. The inner
`none` of `test` is `std::nullopt`: the search is cancelled. -/
structure Searcher (σ : Type) where
  middle : σ → Nat → Nat → Option (Option Nat × σ)
  empty : Nat → Nat → Bool
  test : σ → Nat → Option (Option (POrd × Nat) × σ)

/-- `GetSearchGuide` (`binary_search.h:327-335`): a test which returns an ordering. -/
def guideOf (next : Nat → Nat) (o : POrd) (pos : Nat) : POrd × Nat :=
  (o, if o = .equivalent ∨ o = .greater then pos else next pos)

/-- `DefaultSearchTraits` (`binary_search.h:294-319`): `Next`, `Empty`, `Middle`, with a test which returns an ordering or
cancels. `low + (high - low) / 2` does not overflow. -/
def defaultSearcher (test : Nat → Option POrd) : Searcher Unit where
  middle _ low high := some (if high ≤ low then none else some (low + (high - low) / 2), ())
  empty low high := high ≤ low
  test _ p := some ((test p).map (fun o => guideOf (· + 1) o p), ())

/-- How the inner loop ends: `goto again` with new bounds, or returning. The list is a ghost: the arguments
of `test()` so far. -/
inductive SearchStep (σ : Type)
  | again (low high : Nat) (res : SearchResult) (s : σ) (tr : List Nat)
  | done (res : SearchResult) (s : σ) (tr : List Nat)
  | cancelled (s : σ) (tr : List Nat)

/-- The inner loop (`binary_search.h:416-448`). `mbu` is `middle_before_unordered`. The cancelling variant
(`binary_search.h:463-520`) makes a cancelled test end the search as if it was `equivalent`, and then returns
`std::nullopt`. -/
def searchInner {σ : Type} (S : Searcher σ) (low high mbu : Nat) (res : SearchResult) (middle : Nat)
    (unorderedFound : Bool) (s : σ) (tr : List Nat) : Option (SearchStep σ) :=
  match S.test s middle with
  | none => none
  | some (none, s) => some (.cancelled s (tr ++ [middle]))
  | some (some (.less, next), s) =>
    some (.again next high
      (if res.ordering = .equivalent ∨ res.ordering = .greater then res else ⟨.less, res.found⟩) s (tr ++ [middle]))
  | some (some (.equivalent, next), s) => some (.done ⟨.equivalent, next⟩ s (tr ++ [middle]))
  | some (some (.greater, next), s) =>
    if unorderedFound then some (.again low mbu ⟨.greater, next⟩ s (tr ++ [middle]))
    else some (.again low next ⟨.greater, next⟩ s (tr ++ [middle]))
  | some (some (.unordered, next), s) =>
    if S.empty next high then some (.again low mbu res s (tr ++ [middle]))
    else searchInner S low high mbu res next true s (tr ++ [middle])
partial_fixpoint

/-- From the label `again` (`binary_search.h:408-453`). The result is `none` if the search does not terminate; the inner
`none` means that the search was cancelled. -/
def searchOuter {σ : Type} (S : Searcher σ) (low high : Nat) (res : SearchResult) (s : σ) (tr : List Nat) :
    Option (Option SearchResult × σ × List Nat) :=
  match S.middle s low high with
  | none => none
  | some (none, s) => some (some res, s, tr)
  | some (some m, s) =>
    match searchInner S low high m res m false s tr with
    | none => none
    | some (.cancelled s tr) => some (none, s, tr)
    | some (.done res s tr) => some (some res, s, tr)
    | some (.again low high res s tr) => searchOuter S low high res s tr
partial_fixpoint

/-- `BinarySearch(low, high, test, traits)` (`binary_search.h:379-454`). -/
def binarySearch {σ : Type} (S : Searcher σ) (low high : Nat) (s : σ) :
    Option (Option SearchResult × σ × List Nat) :=
  searchOuter S low high ⟨.unordered, high⟩ s []

/-! ## Specification -/

/-- The precondition of `BinarySearch()` (`binary_search.h:201-205`) for the positions satisfying `I`. -/
def OrderedTest (I : Nat → Prop) (T : Nat → POrd) (low high : Nat) : Prop :=
  ∀ p q, I p → I q → low ≤ p → p < high → low ≤ q → q < high →
    (T p = .less → T q = .equivalent → p < q) ∧
    (T p = .equivalent → T q = .greater → p < q) ∧
    (T p = .less → T q = .greater → p < q)

/-- What the documentation of `SearchResult` says (`binary_search.h:38-47`). -/
def SearchContract (I : Nat → Prop) (T : Nat → POrd) (low high : Nat) (r : SearchResult) : Prop :=
  match r.ordering with
  | .equivalent => I r.found ∧ low ≤ r.found ∧ r.found < high ∧ T r.found = .equivalent
  | .greater => I r.found ∧ low ≤ r.found ∧ r.found < high ∧ T r.found = .greater ∧
      (∀ q, I q → low ≤ q → q < high → T q ≠ .equivalent) ∧
      (∀ q, I q → low ≤ q → q < high → T q = .greater → r.found ≤ q)
  | .less => r.found = high ∧ (∃ p, I p ∧ low ≤ p ∧ p < high ∧ T p = .less) ∧
      (∀ q, I q → low ≤ q → q < high → T q ≠ .equivalent ∧ T q ≠ .greater)
  | .unordered => r.found = high ∧ (∀ q, I q → low ≤ q → q < high → T q = .unordered)

/-- What is guaranteed about the arguments of `test()`, in the order of calls (`binary_search.h:211-227`). -/
def SearchTrace (I : Nat → Prop) (T : Nat → POrd) (low high : Nat) (tr : List Nat) : Prop :=
  (∀ t ∈ tr, I t ∧ low ≤ t ∧ t < high) ∧
  tr.Pairwise (fun a b => a ≠ b ∧ (T a = .less → a < b) ∧ (T a = .greater → b < a) ∧ T a ≠ .equivalent)

/-- The last argument of `test()` with a given property. -/
def lastWith (P : Nat → Bool) (tr : List Nat) : Option Nat := tr.reverse.find? P

/-- `ordering >= 0`. -/
def POrd.stops : POrd → Bool
  | .equivalent | .greater => true
  | .less | .unordered => false

/-- If some `test()` returned `equivalent` or `greater` then the result is the argument of the last such call
(`binary_search.h:229-232`); and, if nothing is `equivalent`, all positions between the last `less` position
tested (or the beginning) and the result are `unordered`. -/
def SearchLast (I : Nat → Prop) (T : Nat → POrd) (low : Nat) (tr : List Nat) (r : SearchResult) : Prop :=
  lastWith (fun p => (T p).stops) tr = (if r.ordering.stops then some r.found else none) ∧
  (r.ordering ≠ .equivalent →
    match lastWith (fun p => T p == .less) tr with
    | some p => ∀ q, I q → p < q → q < r.found → T q = .unordered
    | none => ∀ q, I q → low ≤ q → q < r.found → T q = .unordered)

/-- The assumptions about `traits` and `test`, relative to the positions `I` which are interesting; `test(p)` has the
result `T p`, unless it cancels the search (`cancel p`), and provides the position `N p`. `Inv tr` is what the caller
maintains about its state after the calls `tr` of `test()`; `Mid tr` is weaker, and is enough before calling `test()`,
for a `Middle` with side effects. -/
structure SearcherOk {σ : Type} (S : Searcher σ) (Inv Mid : List Nat → σ → Prop) (I : Nat → Prop) (T : Nat → POrd) (N : Nat → Nat)
    (cancel : Nat → Prop) (low high : Nat) : Prop where
  lowI : I low
  emptyEq : ∀ l h, S.empty l h = true ↔ h ≤ l
  middle : ∀ tr s l h, Inv tr s → I l → low ≤ l → h ≤ high →
    ∃ r s', S.middle s l h = some (r, s') ∧ (r = none → Inv tr s' ∧ h ≤ l) ∧
      (∀ m, r = some m → Mid tr s' ∧ I m ∧ l ≤ m ∧ m < h)
  weak : ∀ tr s, Inv tr s → Mid tr s
  test : ∀ tr s p, Mid tr s → I p → low ≤ p → p < high →
    (cancel p ∧ ∃ s', S.test s p = some (none, s') ∧ Inv (tr ++ [p]) s') ∨
    (¬ cancel p ∧ ∃ s', S.test s p = some (some (T p, N p), s') ∧ Inv (tr ++ [p]) s')
  nextStop : ∀ p, I p → low ≤ p → p < high → T p = .equivalent ∨ T p = .greater → N p = p
  nextGo : ∀ p, I p → low ≤ p → p < high → T p = .less ∨ T p = .unordered →
    p < N p ∧ I (N p) ∧ ∀ q, p < q → q < N p → ¬ I q

/-! ## Proofs -/

section
variable {σ : Type} {S : Searcher σ} {Inv Mid : List Nat → σ → Prop} {I : Nat → Prop} {T : Nat → POrd} {N : Nat → Nat}
  {cancel : Nat → Prop} {low high : Nat}

theorem searchInner_eq (l h mbu : Nat) (res : SearchResult) (m : Nat) (u : Bool) (s : σ) (tr : List Nat) :
    searchInner S l h mbu res m u s tr =
  match S.test s m with
  | none => none
  | some (none, s) => some (.cancelled s (tr ++ [m]))
  | some (some (.less, next), s) =>
    some (.again next h
      (if res.ordering = .equivalent ∨ res.ordering = .greater then res else ⟨.less, res.found⟩) s (tr ++ [m]))
  | some (some (.equivalent, next), s) => some (.done ⟨.equivalent, next⟩ s (tr ++ [m]))
  | some (some (.greater, next), s) =>
    if u then some (.again l mbu ⟨.greater, next⟩ s (tr ++ [m]))
    else some (.again l next ⟨.greater, next⟩ s (tr ++ [m]))
  | some (some (.unordered, next), s) =>
    if S.empty next h then some (.again l mbu res s (tr ++ [m]))
    else searchInner S l h mbu res next true s (tr ++ [m]) := by
  rw [searchInner]

/-- The invariant at the label `again`. -/
structure SearchInv (I : Nat → Prop) (T : Nat → POrd) (N : Nat → Nat) (low high l h : Nat) (res : SearchResult) (tr : List Nat) : Prop where
  lI : I l
  ll : low ≤ l
  hh : h ≤ high
  below : ∀ q, I q → low ≤ q → q < l → q < high → T q = .less ∨ T q = .unordered
  above : ∀ q, I q → h ≤ q → q < high → T q = .greater ∨ T q = .unordered
  neq : res.ordering ≠ .equivalent
  gr : res.ordering = .greater → I res.found ∧ low ≤ res.found ∧ h ≤ res.found ∧ res.found < high ∧
    T res.found = .greater ∧ ∀ q, I q → h ≤ q → q < res.found → T q = .unordered
  le : res.ordering = .less → res.found = high ∧ (∃ p, I p ∧ low ≤ p ∧ p < high ∧ T p = .less) ∧
    ∀ q, I q → h ≤ q → q < high → T q = .unordered
  un : res.ordering = .unordered → res.found = high ∧ (∀ q, I q → h ≤ q → q < high → T q = .unordered) ∧
    ∀ q, I q → low ≤ q → q < l → q < high → T q = .unordered
  trOk : SearchTrace I T low high tr
  lastStop : lastWith (fun p => (T p).stops) tr = (if res.ordering.stops then some res.found else none)
  lastLess : l = match lastWith (fun p => T p == .less) tr with
    | some p => N p
    | none => low
  lessMem : ∀ p, lastWith (fun p => T p == .less) tr = some p → p ∈ tr ∧ T p = .less
  trOut : ∀ t ∈ tr, (t < l ∨ h ≤ t) ∧ T t ≠ .equivalent ∧ (T t = .less → t < l) ∧ (T t = .greater → h ≤ t)

theorem lastWith_snoc (P : Nat → Bool) (tr : List Nat) (m : Nat) :
    lastWith P (tr ++ [m]) = if P m then some m else lastWith P tr := by
  unfold lastWith
  rw [List.reverse_append, List.reverse_singleton, List.singleton_append, List.find?_cons]
  cases P m <;> rfl

theorem lastWith_some {P : Nat → Bool} {tr : List Nat} {p : Nat} (h : lastWith P tr = some p) : p ∈ tr ∧ P p = true := by
  unfold lastWith at h
  exact ⟨List.mem_reverse.1 (List.mem_of_find?_eq_some h), List.find?_some h⟩

theorem SearchTrace.snoc {tr : List Nat} {m : Nat} (h : SearchTrace I T low high tr) (hm : I m) (h1 : low ≤ m) (h2 : m < high)
    (h3 : ∀ t ∈ tr, t ≠ m ∧ (T t = .less → t < m) ∧ (T t = .greater → m < t) ∧ T t ≠ .equivalent) :
    SearchTrace I T low high (tr ++ [m]) := by
  refine ⟨?_, ?_⟩
  · intro t ht
    rcases List.mem_append.1 ht with ht | ht
    · exact h.1 t ht
    · simp at ht; subst ht; exact ⟨hm, h1, h2⟩
  · rw [List.pairwise_append]
    refine ⟨h.2, by simp, ?_⟩
    intro a ha b hb
    simp at hb; subst hb; exact h3 a ha

/-- The result of one round. -/
def RoundOk (Inv : List Nat → σ → Prop) (I : Nat → Prop) (T : Nat → POrd) (N : Nat → Nat) (cancel : Nat → Prop) (low high l h : Nat) : SearchStep σ → Prop
  | .again l' h' res' s' tr' => SearchInv I T N low high l' h' res' tr' ∧ Inv tr' s' ∧ h' - l' < h - l ∧ (∀ t ∈ tr', ¬ cancel t)
  | .done res' s' tr' => SearchContract I T low high res' ∧ SearchTrace I T low high tr' ∧ Inv tr' s' ∧ SearchLast I T low tr' res' ∧
    (∀ t ∈ tr', ¬ cancel t)
  | .cancelled s' tr' => SearchTrace I T low high tr' ∧ Inv tr' s' ∧ ∃ pre t, tr' = pre ++ [t] ∧ cancel t ∧ (∀ x ∈ pre, ¬ cancel x)

theorem searchInner_spec (hS : SearcherOk S Inv Mid I T N cancel low high) (hT : OrderedTest I T low high)
    {l h mbu : Nat} {res : SearchResult} {tr0 : List Nat}
    (hi : SearchInv I T N low high l h res tr0) (hmI : I mbu) (hlm : l ≤ mbu) (hmh : mbu < h) :
    ∀ (n m : Nat) (u : Bool) (s : σ) (tr : List Nat), h - m ≤ n → Mid tr s → I m → mbu ≤ m → m < h →
      (u = false → m = mbu) →
      (∀ q, I q → mbu ≤ q → q < m → T q = .unordered) →
      SearchTrace I T low high tr → (∀ t ∈ tr, t ∈ tr0 ∨ (mbu ≤ t ∧ t < m ∧ T t = .unordered)) →
      (∀ t ∈ tr, ¬ cancel t) → (∀ P : Nat → Bool, (∀ p, P p = true → T p ≠ .unordered) → lastWith P tr = lastWith P tr0) →
      ∃ r, searchInner S l h mbu res m u s tr = some r ∧ RoundOk Inv I T N cancel low high l h r := by
  intro n
  induction n with
  | zero => intro m u s tr hn _ _ _ hm; omega
  | succ n ih =>
    intro m u s tr hn hs hI hbm hm hu hun htr hmem hnc hlw
    have hll := hi.ll
    have hhh := hi.hh
    have hml : low ≤ m := by omega
    have hmhi : m < high := by omega
    have htr' : SearchTrace I T low high (tr ++ [m]) := by
      refine htr.snoc hI hml hmhi ?_
      intro t ht
      rcases hmem t ht with h0 | ⟨h1, h2, h3⟩
      · obtain ⟨a, b, c, d⟩ := hi.trOut t h0
        refine ⟨by omega, fun e => by have := c e; omega, fun e => by have := d e; omega, b⟩
      · refine ⟨by omega, ?_, ?_, ?_⟩ <;> rw [h3] <;> simp
    rw [searchInner_eq]
    rcases hS.test tr s m hs hI hml hmhi with ⟨hc, s', he, hs'⟩ | ⟨hc, s', he, hs'⟩
    · rw [he]
      exact ⟨_, rfl, htr', hs', tr, m, rfl, hc, hnc⟩
    rw [he]
    have hnc' : ∀ t ∈ tr ++ [m], ¬ cancel t := by
      intro t ht
      rcases List.mem_append.1 ht with ht | ht
      · exact hnc t ht
      · simp at ht; subst ht; exact hc
    cases hTm : T m with
    | less =>
      simp only
      refine ⟨_, rfl, ?_, hs', ?_, hnc'⟩
      · obtain ⟨g1, g2, g3⟩ := hS.nextGo m hI hml hmhi (Or.inl hTm)
        have hbelow : ∀ q, I q → low ≤ q → q < N m → q < high → T q = .less ∨ T q = .unordered := by
          intro q hq h1 h2 h3
          have hqm : q ≤ m := by
            rcases Nat.lt_or_ge m q with h | h
            · exact absurd hq (g3 q h h2)
            · exact h
          have hh := hT m q hI hq hml hmhi h1 h3
          cases hTq : T q with
          | less => exact Or.inl rfl
          | unordered => exact Or.inr rfl
          | equivalent => have := hh.1 hTm hTq; omega
          | greater => have := hh.2.2 hTm hTq; omega
        refine ⟨g2, by omega, hi.hh, hbelow, hi.above, ?_, ?_, ?_, ?_, htr', ?_, ?_, ?_, ?_⟩
        · split
          · exact hi.neq
          · simp
        · split
          · intro e
            obtain ⟨a, b, c, d, e, f⟩ := hi.gr e
            exact ⟨a, b, c, d, e, f⟩
          · simp
        · split
          · rename_i hor
            intro e
            rw [e] at hor; simp at hor
          · rename_i hor
            intro _
            refine ⟨?_, ⟨m, hI, hml, hmhi, hTm⟩, ?_⟩
            · cases ho : res.ordering with
              | less => exact (hi.le ho).1
              | unordered => exact (hi.un ho).1
              | equivalent => exact absurd (Or.inl ho) hor
              | greater => exact absurd (Or.inr ho) hor
            · cases ho : res.ordering with
              | less => exact (hi.le ho).2.2
              | unordered => exact (hi.un ho).2.1
              | equivalent => exact absurd (Or.inl ho) hor
              | greater => exact absurd (Or.inr ho) hor
        · split
          · rename_i hor
            intro e
            rw [e] at hor; simp at hor
          · simp
        · rw [lastWith_snoc, hTm, hlw _ (fun p hp e => by simp [e, POrd.stops] at hp), hi.lastStop,
            if_neg (by decide)]
          cases ho : res.ordering <;> simp [ho, POrd.stops]
        · rw [lastWith_snoc, hTm]; rfl
        · intro p hp
          rw [lastWith_snoc, hTm] at hp
          simp at hp; subst hp; exact ⟨by simp, hTm⟩
        · intro t ht
          rcases List.mem_append.1 ht with ht | ht
          · rcases hmem t ht with h0 | ⟨h1, h2, h3⟩
            · obtain ⟨a, b, c, d⟩ := hi.trOut t h0
              exact ⟨by omega, b, fun e => by have := c e; omega, d⟩
            · refine ⟨by omega, ?_, ?_, ?_⟩ <;> rw [h3] <;> simp
          · simp at ht; subst ht
            refine ⟨by omega, ?_, ?_, ?_⟩ <;> rw [hTm] <;> simp <;> omega
      · have := (hS.nextGo m hI hml hmhi (Or.inl hTm)).1
        omega
    | equivalent =>
      simp only
      refine ⟨_, rfl, ?_, htr', hs', ⟨?_, ?_⟩, hnc'⟩
      · rw [hS.nextStop m hI hml hmhi (Or.inl hTm)]
        exact ⟨hI, hml, hmhi, hTm⟩
      · rw [hS.nextStop m hI hml hmhi (Or.inl hTm), lastWith_snoc, hTm]; rfl
      · intro h; exact absurd rfl h
    | greater =>
      simp only
      have hN := hS.nextStop m hI hml hmhi (Or.inr hTm)
      rw [hN]
      have habove : ∀ q, I q → m ≤ q → q < high → T q = .greater ∨ T q = .unordered := by
        intro q hq h2 h3
        have hh := hT q m hq hI (by omega) h3 hml hmhi
        cases hTq : T q with
        | greater => exact Or.inl rfl
        | unordered => exact Or.inr rfl
        | equivalent => have := hh.2.1 hTq hTm; omega
        | less => have := hh.2.2 hTq hTm; omega
      have key : SearchInv I T N low high l mbu ⟨.greater, m⟩ (tr ++ [m]) := by
        refine ⟨hi.lI, hi.ll, by omega, hi.below, ?_, by simp, ?_, by simp, by simp, htr', ?_, ?_, ?_, ?_⟩
        · intro q hq h1 h2
          rcases Nat.lt_or_ge q m with h | h
          · exact Or.inr (hun q hq h1 h)
          · exact habove q hq h h2
        · intro _
          exact ⟨hI, hml, hbm, hmhi, hTm, hun⟩
        · rw [lastWith_snoc, hTm]; rfl
        · rw [lastWith_snoc, hTm, hlw _ (fun p hp e => by simp [e] at hp)]; exact hi.lastLess
        · intro p hp
          have := lastWith_some hp
          exact ⟨this.1, by simpa using this.2⟩
        · intro t ht
          rcases List.mem_append.1 ht with ht | ht
          · rcases hmem t ht with h0 | ⟨h1, h2, h3⟩
            · obtain ⟨a, b, c, d⟩ := hi.trOut t h0
              exact ⟨by omega, b, c, fun e => by have := d e; omega⟩
            · refine ⟨Or.inr h1, ?_, ?_, ?_⟩ <;> rw [h3] <;> simp
          · simp at ht; subst ht
            exact ⟨Or.inr hbm, by rw [hTm]; simp, by rw [hTm]; simp, fun _ => hbm⟩
      cases u with
      | true =>
        refine ⟨_, if_pos rfl, key, hs', ?_, hnc'⟩
        omega
      | false =>
        have hm0 := hu rfl
        subst hm0
        refine ⟨_, if_neg (by simp), key, hs', ?_, hnc'⟩
        omega
    | unordered =>
      simp only
      obtain ⟨g1, g2, g3⟩ := hS.nextGo m hI hml hmhi (Or.inr hTm)
      have hun2 : ∀ q, I q → mbu ≤ q → q < N m → T q = .unordered := by
        intro q hq h1 h2
        rcases Nat.lt_trichotomy q m with h | h | h
        · exact hun q hq h1 h
        · subst h; exact hTm
        · exact absurd hq (g3 q h h2)
      have hmem2 : ∀ t ∈ tr ++ [m], t ∈ tr0 ∨ (mbu ≤ t ∧ t < N m ∧ T t = .unordered) := by
        intro t ht
        rcases List.mem_append.1 ht with ht | ht
        · rcases hmem t ht with h0 | ⟨h1, h2, h3⟩
          · exact Or.inl h0
          · exact Or.inr ⟨h1, by omega, h3⟩
        · simp at ht; subst ht; exact Or.inr ⟨hbm, g1, hTm⟩
      have hlw2 : ∀ P : Nat → Bool, (∀ p, P p = true → T p ≠ .unordered) →
          lastWith P (tr ++ [m]) = lastWith P tr0 := by
        intro P hP
        rw [lastWith_snoc, if_neg (fun h => hP m h hTm)]; exact hlw P hP
      by_cases he : S.empty (N m) h = true
      · rw [if_pos he]
        have hle := (hS.emptyEq _ _).1 he
        have hun3 : ∀ q, I q → mbu ≤ q → q < h → T q = .unordered := fun q hq h1 h2 => hun2 q hq h1 (by omega)
        refine ⟨_, rfl, ⟨hi.lI, hi.ll, by omega, hi.below, ?_, hi.neq, ?_, ?_, ?_, htr', ?_, ?_, ?_, ?_⟩, hs', by omega, hnc'⟩
        · intro q hq h1 h2
          rcases Nat.lt_or_ge q h with h3 | h3
          · exact Or.inr (hun3 q hq h1 h3)
          · exact hi.above q hq h3 h2
        · intro e
          obtain ⟨a, b, c, d, e, f⟩ := hi.gr e
          refine ⟨a, b, by omega, d, e, ?_⟩
          intro q hq h1 h2
          rcases Nat.lt_or_ge q h with h3 | h3
          · exact hun3 q hq h1 h3
          · exact f q hq h3 h2
        · intro e
          obtain ⟨a, b, c⟩ := hi.le e
          refine ⟨a, b, ?_⟩
          intro q hq h1 h2
          rcases Nat.lt_or_ge q h with h3 | h3
          · exact hun3 q hq h1 h3
          · exact c q hq h3 h2
        · intro e
          obtain ⟨a, b, c⟩ := hi.un e
          refine ⟨a, ?_, c⟩
          intro q hq h1 h2
          rcases Nat.lt_or_ge q h with h3 | h3
          · exact hun3 q hq h1 h3
          · exact b q hq h3 h2
        · rw [hlw2 _ (fun p hp e => by simp [e, POrd.stops] at hp)]; exact hi.lastStop
        · rw [hlw2 _ (fun p hp e => by simp [e] at hp)]; exact hi.lastLess
        · intro p hp
          have := lastWith_some hp
          exact ⟨this.1, by simpa using this.2⟩
        · intro t ht
          rcases hmem2 t ht with h0 | ⟨h1, h2, h3⟩
          · obtain ⟨a, b, c, d⟩ := hi.trOut t h0
            exact ⟨by omega, b, c, fun e => by have := d e; omega⟩
          · refine ⟨Or.inr h1, ?_, ?_, ?_⟩ <;> rw [h3] <;> simp
      · rw [if_neg he]
        have hlt : N m < h := Nat.lt_of_not_le (fun hle => he ((hS.emptyEq _ _).2 hle))
        exact ih (N m) true s' _ (by omega) (hS.weak _ _ hs') g2 (by omega) hlt (by simp) hun2 htr' hmem2 hnc' hlw2

theorem searchOuter_spec (hS : SearcherOk S Inv Mid I T N cancel low high) (hT : OrderedTest I T low high) :
    ∀ (n l h : Nat) (res : SearchResult) (s : σ) (tr : List Nat), h - l ≤ n → SearchInv I T N low high l h res tr → Inv tr s →
      (∀ t ∈ tr, ¬ cancel t) →
      ∃ r s' tr', searchOuter S l h res s tr = some (r, s', tr') ∧ Inv tr' s' ∧ SearchTrace I T low high tr' ∧
        (∀ res', r = some res' → SearchContract I T low high res' ∧ SearchLast I T low tr' res' ∧ ∀ t ∈ tr', ¬ cancel t) ∧
        (r = none → ∃ pre t, tr' = pre ++ [t] ∧ cancel t ∧ (∀ x ∈ pre, ¬ cancel x)) := by
  intro n
  induction n using Nat.strongRecOn with
  | _ n ih =>
    intro l h res s tr hn hi hs hnc
    obtain ⟨r, s1, he, hr1, hr2⟩ := hS.middle tr s l h hs hi.lI hi.ll hi.hh
    rw [searchOuter, he]
    cases r with
    | none =>
      obtain ⟨hs1, hhl⟩ := hr1 rfl
      refine ⟨_, _, _, rfl, hs1, hi.trOk, ?_, by simp⟩
      intro res' hres
      simp only [Option.some.injEq] at hres
      subst hres
      have hlast : SearchLast I T low tr res := by
        refine ⟨hi.lastStop, ?_⟩
        intro _
        have hun : ∀ q, I q → l ≤ q → q < res.found → T q = .unordered := by
          intro q hq h1 h2
          cases ho : res.ordering with
          | equivalent => exact absurd ho hi.neq
          | greater => exact (hi.gr ho).2.2.2.2.2 q hq (by omega) h2
          | less =>
            obtain ⟨a, _, c⟩ := hi.le ho
            exact c q hq (by omega) (by omega)
          | unordered =>
            obtain ⟨a, c, _⟩ := hi.un ho
            exact c q hq (by omega) (by omega)
        have hL := hi.lastLess
        have hM := hi.lessMem
        cases hlast : lastWith (fun p => T p == .less) tr with
        | none =>
          rw [hlast] at hL
          simp only at hL ⊢
          intro q hq h1 h2
          exact hun q hq (by omega) h2
        | some p =>
          rw [hlast] at hL
          simp only at hL ⊢
          obtain ⟨m1, m2⟩ := hM p hlast
          obtain ⟨n1, n2, n3⟩ := hi.trOk.1 p m1
          obtain ⟨g1, g2, g3⟩ := hS.nextGo p n1 n2 n3 (Or.inl m2)
          intro q hq h1 h2
          refine hun q hq ?_ h2
          rcases Nat.lt_or_ge q l with h | h
          · exact absurd hq (g3 q h1 (by omega))
          · exact h
      refine ⟨?_, hlast, hnc⟩
      unfold SearchContract
      have hall : ∀ q, I q → low ≤ q → q < high → (q < l ∧ (T q = .less ∨ T q = .unordered)) ∨ h ≤ q := by
        intro q hq h1 h2
        rcases Nat.lt_or_ge q l with h3 | h3
        · exact Or.inl ⟨h3, hi.below q hq h1 h3 h2⟩
        · exact Or.inr (by omega)
      split
      · rename_i ho; exact absurd ho hi.neq
      · rename_i ho
        obtain ⟨a, b, c, d, e, f⟩ := hi.gr ho
        refine ⟨a, b, d, e, ?_, ?_⟩
        · intro q hq h1 h2 h3
          rcases hall q hq h1 h2 with ⟨_, h4 | h4⟩ | h4
          · rw [h3] at h4; cases h4
          · rw [h3] at h4; cases h4
          · rcases hi.above q hq h4 h2 with h5 | h5 <;> rw [h3] at h5 <;> cases h5
        · intro q hq h1 h2 h3
          rcases hall q hq h1 h2 with ⟨_, h4 | h4⟩ | h4
          · rw [h3] at h4; cases h4
          · rw [h3] at h4; cases h4
          · rcases Nat.lt_or_ge q res.found with h5 | h5
            · have := f q hq h4 h5
              rw [h3] at this; cases this
            · exact h5
      · rename_i ho
        obtain ⟨a, b, c⟩ := hi.le ho
        refine ⟨a, b, ?_⟩
        intro q hq h1 h2
        rcases hall q hq h1 h2 with ⟨_, h4 | h4⟩ | h4
        · rw [h4]; simp
        · rw [h4]; simp
        · rw [c q hq h4 h2]; simp
      · rename_i ho
        obtain ⟨a, b, c⟩ := hi.un ho
        refine ⟨a, ?_⟩
        intro q hq h1 h2
        rcases hall q hq h1 h2 with ⟨h4, _⟩ | h4
        · exact c q hq h1 h4 h2
        · exact b q hq h4 h2
    | some m =>
      obtain ⟨hs1, m1, m2, m3⟩ := hr2 m rfl
      obtain ⟨r, hr, hok⟩ := searchInner_spec hS hT hi m1 m2 m3 (h - m) m false s1 tr (Nat.le_refl _) hs1 m1
        (Nat.le_refl _) m3 (fun _ => rfl) (fun q _ h1 h2 => by omega) hi.trOk (fun t ht => Or.inl ht) hnc (fun _ _ => rfl)
      simp only [hr]
      cases r with
      | cancelled s2 tr2 => exact ⟨_, _, _, rfl, hok.2.1, hok.1, by simp, fun _ => hok.2.2⟩
      | done res2 s2 tr2 =>
        refine ⟨_, _, _, rfl, hok.2.2.1, hok.2.1, ?_, by simp⟩
        intro res' hres
        simp only [Option.some.injEq] at hres
        subst hres
        exact ⟨hok.1, hok.2.2.2.1, hok.2.2.2.2⟩
      | again l2 h2 res2 s2 tr2 =>
        exact ih (h2 - l2) (by have := hok.2.2.1; omega) l2 h2 res2 s2 tr2 (Nat.le_refl _) hok.1 hok.2.1 hok.2.2.2

/-- The generic search theorem. -/
theorem binarySearch_spec (hS : SearcherOk S Inv Mid I T N cancel low high) (hT : OrderedTest I T low high) {s : σ}
    (hs : Inv [] s) :
    ∃ r s' tr, binarySearch S low high s = some (r, s', tr) ∧ Inv tr s' ∧ SearchTrace I T low high tr ∧
      (∀ res, r = some res → SearchContract I T low high res ∧ SearchLast I T low tr res ∧ ∀ t ∈ tr, ¬ cancel t) ∧
      (r = none → ∃ pre t, tr = pre ++ [t] ∧ cancel t ∧ (∀ x ∈ pre, ¬ cancel x)) := by
  refine searchOuter_spec hS hT (high - low) low high _ s [] (Nat.le_refl _) ?_ hs (by simp)
  refine ⟨hS.lowI, Nat.le_refl _, Nat.le_refl _, fun q _ h1 h2 => by omega, fun q _ h1 h2 => by omega, by simp, by simp,
    by simp, ?_, ⟨by simp, List.Pairwise.nil⟩, rfl, rfl, by simp [lastWith], by simp⟩
  intro _
  exact ⟨rfl, fun q _ h1 h2 => by omega, fun q _ h1 h2 => by omega⟩

end

/-- `DefaultSearchTraits` meet the assumptions. -/
theorem defaultSearcher_ok (test : Nat → Option POrd) (T : Nat → POrd) (hT : ∀ p o, test p = some o → T p = o)
    (low high : Nat) :
    SearcherOk (defaultSearcher test) (fun _ _ => True) (fun _ _ => True) (fun _ => True) T (fun p => (guideOf (· + 1) (T p) p).2)
      (fun p => test p = none) low high := by
  refine ⟨trivial, ?_, ?_, fun _ _ h => h, ?_, ?_, ?_⟩
  · intro l h; simp [defaultSearcher]
  · intro tr s l h _ _ _ _
    refine ⟨_, _, rfl, ?_, ?_⟩
    · split <;> simp_all
    · intro m
      split
      · simp
      · simp only [Option.some.injEq, true_and]; omega
  · intro tr s p _ _ _ _
    cases h : test p with
    | none => exact Or.inl ⟨rfl, (), by simp [defaultSearcher, h], trivial⟩
    | some o =>
      right
      refine ⟨by simp, (), ?_, trivial⟩
      simp only [defaultSearcher, h, Option.map_some, hT p o h]
      rfl
  · intro p _ _ _ h
    simp only [guideOf]; rw [if_pos h]
  · intro p _ _ _ h
    have hn : ¬ (T p = .equivalent ∨ T p = .greater) := by rcases h with h | h <;> rw [h] <;> simp
    simp only [guideOf]; rw [if_neg hn]
    exact ⟨by omega, trivial, fun q h1 h2 => by omega⟩

end Riegeli
