import Verif.ChunkSetBuild
/-!
# C26, C27: `LinearSortedStringSet` and `ChunkedSortedStringSet`

Strings are byte lists; `<` on them is the lexicographic order of unsigned bytes, and `<` on lists of strings is the lexicographic
order. `none` as a result of an operation would be a failed assertion (undefined behavior in an optimized build), hence each
`= some …` below also says that no assertion fails. Element lengths are below 2^63.
-/
namespace Riegeli.Props
open Riegeli StrSet

/-- Everything which can be seen in a `LinearSortedStringSet` without comparing it, if it has the elements `es` in this order:
iteration, split iteration, `size()`, `first()`, `last()`; `contains(x, &i)` returns `true` only if the element at index `i` is `x`; and
if the elements are sorted then `contains(x, &i)` is membership and `i` is the number of elements less than `x`. -/
def Shows (set : Bytes) (es : List Bytes) : Prop :=
  plainIter.all set = some es ∧
  (∃ ss, splitIter.all set = some ss ∧ ss.map (fun s => s.pre ++ s.suf) = es) ∧
  StrSet.size set = some es.length ∧
  StrSet.first set = es.head? ∧
  StrSet.last set = es.getLast? ∧
  (∀ x, ∃ b i, contains set x = some (b, i) ∧ (b = true → es[i]? = some x)) ∧
  (es.Pairwise (· < ·) → ∀ x, contains set x = some (decide (x ∈ es), es.countP (fun e => decide (e < x))))

theorem shows_of {set : Bytes} {es : List (Nat × Bytes)} (h : Represents [] set es) : Shows set (es.map (·.2)) := by
  refine ⟨?_, ⟨es.map splitAt, ?_, map_splitAt_str es⟩, ?_, ?_, ?_, ?_, ?_⟩
  · obtain ⟨it, hb, hy⟩ := plain_yields h
    rw [LinIter.all, hb]
    exact collect_yields hy
  · obtain ⟨it, hb, hy⟩ := split_yields h
    rw [LinIter.all, show splitIter.begin set = some it from hb]
    exact collect_yields hy
  · rw [size_eq h, List.length_map]
  · cases es with
    | nil => rw [h.nil_iff.2 rfl]; rfl
    | cons e es => rw [first_eq h]; rfl
  · cases es with
    | nil => rw [h.nil_iff.2 rfl]; rfl
    | cons e es => rw [last_eq h (by simp), List.getLast?_map, List.getLast?_eq_some_getLast (by simp)]; rfl
  · intro x
    rw [contains_eq h]
    exact ⟨_, _, rfl, fun hb => by simpa using (scan_sound hb).2⟩
  · intro hs x
    rw [contains_eq h, scan_sorted hs, Nat.zero_add]

/-- A list determines the set shown. -/
theorem Shows.unique {set : Bytes} {es fs : List Bytes} (h1 : Shows set es) (h2 : Shows set fs) : es = fs :=
  Option.some.inj (h1.1.symm.trans h2.1)

/-- **C26** (building). A set built from a strictly increasing sequence has exactly these elements, in this order. -/
theorem C26_from_sorted {src : List Bytes} (hs : src.Pairwise (· < ·)) (hl : ∀ e ∈ src, e.length < 2 ^ 63) :
    ∃ set, fromSorted src = some set ∧ Shows set src := by
  obtain ⟨b, es, h1, h2, h3, h4, h5, h6⟩ := build_spec hl
  have hsp := insertSpec_sorted (l := none) (after_none.2 hs)
  refine ⟨b.build.1, ?_, ?_⟩
  · simp only [fromSorted, h1]
    rw [if_neg]
    rw [hsp]
    simp
  · have := shows_of h2
    rwa [h4, hsp] at this

/-- **C26** (building with duplicates; `FromUnsorted` sorts first, in any way). If `src` is any sequence in which no element is less than an
earlier one then the set has the elements of `src`, each once, in increasing order. If some element is less than an earlier one then `FromSorted`
fails a check. -/
theorem C26_from_weakly_sorted {src : List Bytes} (hl : ∀ e ∈ src, e.length < 2 ^ 63) :
    (src.Pairwise (fun a b => ¬b < a) → ∃ set es, fromSorted src = some set ∧ Shows set es ∧ es.Pairwise (· < ·) ∧ ∀ x, x ∈ es ↔ x ∈ src) ∧
    (¬src.Pairwise (fun a b => ¬b < a) → fromSorted src = none) := by
  obtain ⟨b, es, h1, h2, h3, h4, h5, h6⟩ := build_spec hl
  constructor
  · intro hs
    obtain ⟨q1, q2⟩ := insertSpec_weak (l := none) hs (by intro x h; cases h)
    refine ⟨b.build.1, es.map (·.2), ?_, shows_of h2, ?_, ?_⟩
    · simp only [fromSorted, h1]
      rw [if_neg]
      intro h
      rw [List.any_eq_true] at h
      obtain ⟨r, r1, r2⟩ := h
      exact q1 r r1 (by simpa using r2)
    · rw [h4]; exact after_none.1 (insertSpec_after none src)
    · intro x
      rw [h4, q2]
      simp
  · intro hs
    simp only [fromSorted, h1]
    rw [if_pos]
    rw [List.any_eq_true]
    refine Classical.byContradiction fun hne => hs (insertSpec_unsorted (l := none) ?_).1
    intro r hr e
    exact hne ⟨r, hr, by simp [e]⟩

/-- What a sequence of `TryInsertNext(e)` should do, where `l` is the last element inserted: an element is inserted (`yes`) if it is greater
than the last element inserted; otherwise it returns `false` (`no`) if they are equal, or fails (`unsorted`), and has no effect. -/
def insertions : Option Bytes → List Bytes → List Inserted × List Bytes
  | _, [] => ([], [])
  | l, e :: es =>
    if l = none ∨ ∃ x, l = some x ∧ x < e then (.yes :: (insertions (some e) es).1, e :: (insertions (some e) es).2)
    else ((if l = some e then .no else .unsorted) :: (insertions l es).1, (insertions l es).2)

theorem insertions_eq (l : Option Bytes) (src : List Bytes) : insertions l src = insertSpec l src := by
  induction src generalizing l with
  | nil => cases l <;> rfl
  | cons e src ih =>
    cases l with
    | none => simp only [insertions, insertSpec, true_or, if_true, ih]
    | some l =>
      simp only [insertions, insertSpec, ih]
      by_cases h : l < e
      · rw [if_pos h, if_pos]
        exact .inr ⟨l, rfl, h⟩
      · rw [if_neg h, if_neg]
        · simp only [Option.some.injEq, eq_comm (a := l)]
        · rintro (h1 | ⟨x, h1, h2⟩)
          · cases h1
          · cases h1; exact h h2

/-- **C26** (the builder). For any sequence of calls of `TryInsertNext`: each returns what it should, and the set built has exactly the elements
inserted, which are strictly increasing. `size()` and `last()` of the builder are right. -/
theorem C26_builder {src : List Bytes} (hl : ∀ e ∈ src, e.length < 2 ^ 63) :
    ∃ b, Builder.new.insertAll src = ((insertions none src).1, b) ∧ Shows b.build.1 (insertions none src).2 ∧
      (insertions none src).2.Pairwise (· < ·) ∧ b.size = (insertions none src).2.length ∧
      (∀ l, (insertions none src).2.getLast? = some l → b.last = l) ∧ b.build.2 = Builder.new := by
  obtain ⟨b, es, h1, h2, h3, h4, h5, h6⟩ := build_spec hl
  rw [insertions_eq]
  refine ⟨b, h1, ?_, after_none.1 (insertSpec_after none src), ?_, ?_, rfl⟩
  · rw [← h4]; exact shows_of h2
  · rw [h5, ← h4, List.length_map]
  · intro l hl
    rw [h6, lastOf, ← List.getLast?_map, h4, hl]
    rfl

/-- A set which can exist: built by a builder, or decoded from any bytes with any options. -/
def Exists (set : Bytes) : Prop :=
  (∃ src, (∀ e ∈ src, e.length < 2 ^ 63) ∧ (Builder.new.insertAll src).2.build.1 = set) ∨
  (∃ src o st rest, StrSet.decode src o = some (.ok (set, st, rest)))

theorem exists_iff {set : Bytes} : Exists set → ∃ es, Represents [] set es := by
  rintro (⟨src, h1, h2⟩ | ⟨src, o, st, rest, h⟩)
  · obtain ⟨b, es, q1, q2, _⟩ := build_spec h1
    rw [q1] at h2
    rw [← h2]
    exact ⟨es, q2⟩
  · rcases StrSet.decode_cases src o with ⟨err, g1, _⟩ | ⟨v, enc, rest', es, _, _, _, g4, _, g6⟩
    · rw [h] at g1; cases g1
    · rw [h] at g6
      simp only [Option.some.injEq, Except.ok.injEq, Prod.mk.injEq] at g6
      rw [g6.1]
      exact ⟨es, g4⟩

/-- **C26** (safety). Whatever bytes a set was decoded from, no operation on it fails an assertion, and all of them agree about its
elements. -/
theorem C26_any_set {set : Bytes} (h : Exists set) : ∃ es, Shows set es := by
  obtain ⟨es, he⟩ := exists_iff h
  exact ⟨_, shows_of he⟩

/-- **C26** (decoding). `Decode()` of arbitrary bytes does not fail an assertion. It fails, or consumes a part of the input: a varint with the
length of the representation of the set, within the limit, then the representation. If it validates then the elements decoded are strictly
increasing, and greater than those decoded before with the same state. -/
theorem C26_decode_any (src : Bytes) (o : StrSet.DecodeOptions) :
    ∃ r, StrSet.decode src o = some r ∧ ∀ set st rest, r = .ok (set, st, rest) →
      ∃ es, Shows set es ∧ (∃ v, src = v ++ (set ++ rest) ∧ readVarint 64 false src = some (set.length, set ++ rest)) ∧
        set.length ≤ o.maxEncodedSize ∧
        (o.validate = true → es.Pairwise (· < ·) ∧ ∀ s l, o.decodeState = some s → s.last = some l → ∀ e ∈ es, l < e) ∧
        (∀ s s', o.decodeState = some s → st = some s' → s'.cumulativeSize = s.cumulativeSize + es.length) := by
  rcases StrSet.decode_cases src o with ⟨err, g1, _⟩ | ⟨v, enc, rest', es, g1, g2, g3, g4, g5, g6⟩
  · exact ⟨_, g1, by intro _ _ _ h; cases h⟩
  · refine ⟨_, g6, ?_⟩
    intro set st rest he
    simp only [Except.ok.injEq, Prod.mk.injEq] at he
    obtain ⟨rfl, rfl, rfl⟩ := he
    refine ⟨_, shows_of g4, ⟨v, g1, by rw [g1, g2.read]⟩, g3, ?_, ?_⟩
    · intro hv
      have h5 := g5 hv
      cases hd : o.decodeState with
      | none =>
        rw [hd] at h5
        exact ⟨after_none.1 h5, by intro s l h; cases h⟩
      | some s =>
        rw [hd, Option.bind_some] at h5
        cases hs : s.last with
        | none =>
          rw [hs] at h5
          refine ⟨after_none.1 h5, ?_⟩
          intro s' l h h'
          cases h
          rw [hs] at h'; cases h'
        | some l =>
          rw [hs] at h5
          refine ⟨(after_some.1 h5).2, ?_⟩
          intro s' l' h h'
          cases h
          rw [hs] at h'; cases h'
          exact (after_some.1 h5).1
    · intro s s' h h'
      rw [h] at h'
      simp only [Option.map_some, Option.some.injEq] at h'
      rw [← h']
      simp [stateAfter]

/-- **C26** (what the decoder accepts). `Decode()` succeeds exactly for a varint with a length within the limit followed by so many bytes which are
well-formed: a sequence of elements, each given as the number of bytes shared with the previous one and the remaining bytes (`Represents`);
if it validates, also increasing. -/
theorem C26_decode_accepts (src : Bytes) (o : StrSet.DecodeOptions) (hd : o.decodeState = none) :
    (∃ r, StrSet.decode src o = some (.ok r)) ↔
      ∃ v set rest es, src = v ++ (set ++ rest) ∧ Varint64 v set.length ∧ set.length ≤ o.maxEncodedSize ∧
        Represents [] set es ∧ (o.validate = true → (es.map (·.2)).Pairwise (· < ·)) := by
  rcases StrSet.decode_cases src o with ⟨err, g1, g2⟩ | ⟨v, enc, rest', es, g1, g2, g3, g4, g5, g6⟩
  · rw [g1]
    constructor
    · rintro ⟨r, h⟩; cases h
    · rintro ⟨v, set, rest, es, h1, h2, h3, h4, h5⟩
      refine absurd ⟨v, set, rest, es, h1, h2, h3, h4, fun hv => ?_⟩ g2
      rw [hd]; exact after_none.2 (h5 hv)
  · rw [g6]
    refine ⟨fun _ => ⟨v, enc, rest', es, g1, g2, g3, g4, fun hv => ?_⟩, fun _ => ⟨_, rfl⟩⟩
    have := g5 hv
    rw [hd] at this
    exact after_none.1 this

theorem decode_encode {set : Bytes} {es : List (Nat × Bytes)} (h : Represents [] set es) (hl : set.length < 2 ^ 64)
    {o : StrSet.DecodeOptions} (hmax : set.length ≤ o.maxEncodedSize)
    (hv : o.validate = true → After (o.decodeState.bind (·.last)) (es.map (·.2))) (rest : Bytes) :
    ∃ st, StrSet.decode (StrSet.encode set ++ rest) o = some (.ok (set, st, rest)) := by
  have hw : w64 set.length = set.length := Nat.mod_eq_of_lt hl
  have he : StrSet.encode set ++ rest = writeVarint set.length ++ (set ++ rest) := by
    unfold StrSet.encode
    rw [hw, List.append_assoc]
  rcases StrSet.decode_cases (StrSet.encode set ++ rest) o with ⟨err, _, g2⟩ | ⟨v, enc, rest', es', g1, g2, g3, g4, g5, g6⟩
  · exact absurd ⟨_, set, rest, es, he, Varint64.write hl, hmax, h, hv⟩ g2
  · obtain ⟨_, e2, e3⟩ := CSet.varint_unique (Varint64.write hl) g2 (he.symm.trans g1)
    obtain ⟨rfl, rfl⟩ := List.append_inj e2 e3
    exact ⟨_, g6⟩

/-- **C26** (encoding and decoding). Whatever follows it, the encoding of a set with sorted elements (in particular of any set built) is
decoded back to the same set; its length is `EncodedSize()`. -/
theorem C26_round_trip {set : Bytes} {es : List Bytes} (h : Exists set) (hs : Shows set es) (hl : set.length < 2 ^ 64)
    {o : StrSet.DecodeOptions} (hmax : set.length ≤ o.maxEncodedSize) (hd : o.decodeState = none)
    (hv : o.validate = true → es.Pairwise (· < ·)) (rest : Bytes) :
    StrSet.decode (StrSet.encode set ++ rest) o = some (.ok (set, none, rest)) ∧ (StrSet.encode set).length = StrSet.encodedSize set := by
  obtain ⟨fs, hf⟩ := exists_iff h
  have := (shows_of hf).unique hs
  subst this
  constructor
  · obtain ⟨st, h1⟩ := decode_encode hf hl hmax (by rw [hd]; exact fun q => after_none.2 (hv q)) rest
    rcases StrSet.decode_cases (StrSet.encode set ++ rest) o with ⟨err, g1, _⟩ | ⟨_, _, _, _, _, _, _, _, _, g6⟩
    · rw [h1] at g1; cases g1
    · rw [h1] at g6
      simp only [Option.some.injEq, Except.ok.injEq, Prod.mk.injEq, hd, Option.map_none] at g6
      rw [h1, g6.2.1]
  · unfold StrSet.encode StrSet.encodedSize
    rw [List.length_append, show w64 set.length = set.length from Nat.mod_eq_of_lt hl, lengthVarint_eq hl]

/-- **C26** (ordering). `Compare(a, b)` and thus `<`, `<=`, `>`, `>=` is the lexicographic order of the sequences of elements. -/
theorem C26_compare {a b : Bytes} {es fs : List Bytes} (ha : Exists a) (hb : Exists b) (hes : Shows a es) (hfs : Shows b fs) :
    ∃ o, StrSet.compare a b = some o ∧ (o = .lt ↔ es < fs) ∧ (o = .eq ↔ es = fs) ∧ (o = .gt ↔ fs < es) := by
  obtain ⟨as, ra⟩ := exists_iff ha
  obtain ⟨bs, rb⟩ := exists_iff hb
  have := (shows_of ra).unique hes
  subst this
  have := (shows_of rb).unique hfs
  subst this
  exact ⟨_, StrSet.compare_eq ra rb, cmpList_lt_iff, cmpList_eq_iff, cmpList_gt_iff⟩

/-- **C26** (equality). `a == b` implies that the elements are the same; for sets built by builders it is equivalent. -/
theorem C26_equal {a b : Bytes} {es fs : List Bytes} (ha : Exists a) (hb : Exists b) (hes : Shows a es) (hfs : Shows b fs) :
    ∃ r, StrSet.equal a b = some r ∧ (r = true → es = fs) := by
  obtain ⟨as, ra⟩ := exists_iff ha
  obtain ⟨bs, rb⟩ := exists_iff hb
  have := (shows_of ra).unique hes
  subst this
  have := (shows_of rb).unique hfs
  subst this
  obtain ⟨r, h1, h2⟩ := StrSet.equal_iff ra rb
  exact ⟨r, h1, fun h => (h2.1 h).1⟩

/-- **C26** (equality of sets built). See `C26_equal`. -/
theorem C26_equal_built {src src' : List Bytes} (h : ∀ e ∈ src, e.length < 2 ^ 63) (h' : ∀ e ∈ src', e.length < 2 ^ 63) {es fs : List Bytes}
    (hes : Shows (Builder.new.insertAll src).2.build.1 es) (hfs : Shows (Builder.new.insertAll src').2.build.1 fs) :
    StrSet.equal (Builder.new.insertAll src).2.build.1 (Builder.new.insertAll src').2.build.1 = some (decide (es = fs)) := by
  obtain ⟨b, as, q1, q2, q3, _⟩ := build_spec h
  obtain ⟨b', bs, p1, p2, p3, _⟩ := build_spec h'
  rw [q1] at hes ⊢
  rw [p1] at hfs ⊢
  have := (shows_of q2).unique hes
  subst this
  have := (shows_of p2).unique hfs
  subst this
  obtain ⟨r, h1, h2⟩ := StrSet.equal_iff q2 p2
  simp only at h1 ⊢
  rw [h1]
  congr 1
  rw [Bool.eq_iff_iff, h2, decide_eq_true_iff]
  constructor
  · exact fun h => h.1
  · intro h
    refine ⟨h, ?_⟩
    have := Canon.eq q3 p3 h
    subst this
    intro i x y hx hy
    rw [hx] at hy
    cases hy
    exact Nat.le_refl _

/-- `{"ab", "ac"}`, encoded without sharing: accepted by the decoder. -/
def plainSet : Bytes := [4, 97, 98, 4, 97, 99]
/-- `{"ab", "ac"}`, encoded with the second element sharing one byte. -/
def sharedSet : Bytes := [4, 97, 98, 3, 0, 99]

theorem varint_small {x : Nat} (h : x < 128) : Varint64 [UInt8.ofNat x] x := by
  have h1 : writeVarint x = [UInt8.ofNat x] := by
    rw [writeVarint.eq_def, if_pos h]
  rw [← h1]
  exact Varint64.write (by omega)

theorem plainSet_rep : Represents [] plainSet [(0, [97, 98]), (0, [97, 99])] := by
  have h1 : Varint64 [4] 4 := varint_small (by decide)
  exact .unshared (v := [4]) (u := [97, 98]) h1 (.unshared (v := [4]) (u := [97, 99]) (rest := []) h1 (.nil _))

theorem sharedSet_rep : Represents [] sharedSet [(0, [97, 98]), (1, [97, 99])] := by
  have h1 : Varint64 [4] 4 := varint_small (by decide)
  have h2 : Varint64 [3] 3 := varint_small (by decide)
  have h3 : Varint64 [0] 0 := varint_small (by decide)
  exact .unshared (v := [4]) (u := [97, 98]) h1 (.shared (v := [3]) (w := [0]) (u := [99]) (rest := []) (s := 0) h2 h3 (by decide) (.nil _))

/-- Options which validate. -/
def validating : StrSet.DecodeOptions := ⟨true, 1000, none⟩

/-- **C26** (finding 15): equality is not complete and not symmetric. `SplitElement::Equal` compares with `!=` instead of `==` if the first
element is split earlier (`linear_sorted_string_set.cc:585-592`). Two sets accepted by the validating decoder which have the same elements,
and for which `Compare` returns `equal`, are not equal; in the other order they are. -/
theorem C26_equal_fails : ∃ a b es, (∃ rest, StrSet.decode (StrSet.encode a) validating = some (.ok (a, none, rest))) ∧
    (∃ rest, StrSet.decode (StrSet.encode b) validating = some (.ok (b, none, rest))) ∧ Shows a es ∧ Shows b es ∧
    StrSet.compare a b = some .eq ∧ StrSet.equal a b = some false ∧ StrSet.equal b a = some true := by
  have hs : ([[97, 98], [97, 99]] : List Bytes).Pairwise (· < ·) := by decide
  have hdec : ∀ {set : Bytes} {es : List (Nat × Bytes)}, Represents [] set es → set.length < 1000 → (es.map (·.2)).Pairwise (· < ·) →
      ∃ rest, StrSet.decode (StrSet.encode set) validating = some (.ok (set, none, rest)) := by
    intro set es h hl hp
    obtain ⟨st, h1⟩ := decode_encode h (by omega) (o := validating) (by show set.length ≤ 1000; omega) (fun _ => after_none.2 hp) []
    rw [List.append_nil] at h1
    have h2 : StrSet.decode (StrSet.encode set) validating = some (.ok (set, st, [])) := h1
    rcases StrSet.decode_cases (StrSet.encode set) validating with ⟨err, g1, _⟩ | ⟨_, _, _, _, _, _, _, _, _, g6⟩
    · rw [h2] at g1; cases g1
    · rw [h2] at g6
      simp only [Option.some.injEq, Except.ok.injEq, Prod.mk.injEq, validating, Option.map_none] at g6
      exact ⟨[], by rw [h2, g6.2.1]⟩
  refine ⟨plainSet, sharedSet, [[97, 98], [97, 99]], hdec plainSet_rep (by decide) hs, hdec sharedSet_rep (by decide) hs, shows_of plainSet_rep,
    shows_of sharedSet_rep, StrSet.compare_eq plainSet_rep sharedSet_rep, ?_, ?_⟩
  · obtain ⟨r, h1, h2⟩ := StrSet.equal_iff plainSet_rep sharedSet_rep
    rw [h1]
    cases r with
    | false => rfl
    | true => exact absurd ((h2.1 rfl).2 1 _ _ rfl rfl) (by decide)
  · obtain ⟨r, h1, h2⟩ := StrSet.equal_iff sharedSet_rep plainSet_rep
    rw [h1, h2.2]
    refine ⟨rfl, ?_⟩
    intro i x y hx hy
    match i with
    | 0 => simp at hx hy; rw [← hx, ← hy]; decide
    | 1 => simp at hx hy; rw [← hx, ← hy]; decide
    | n + 2 => simp at hx

/-! ## Chunked sets -/

/-- Everything which can be seen in a `ChunkedSortedStringSet` without comparing it, as in `Shows`. -/
def CShows (s : CSet) (es : List Bytes) : Prop :=
  CSet.all plainIter s = some es ∧
  (∃ ss, CSet.all splitIter s = some ss ∧ ss.map (fun s => s.pre ++ s.suf) = es) ∧
  CSet.size s = es.length ∧
  CSet.first s = es.head? ∧
  CSet.last s = es.getLast? ∧
  (∀ x, ∃ b i, CSet.containsWithIndex s x = some (b, i) ∧ CSet.containsNoIndex s x = some b ∧ (b = true → es[i]? = some x)) ∧
  (es.Pairwise (· < ·) → ∀ x, CSet.containsWithIndex s x = some (decide (x ∈ es), es.countP (fun e => decide (e < x))) ∧
    CSet.containsNoIndex s x = some (decide (x ∈ es)))

theorem cshows_of {s : CSet} {ess : List (List (Nat × Bytes))} (h : CSet.CRep 0 s ess) : CShows s (ess.flatten.map (·.2)) := by
  refine ⟨CSet.all_plain h, ⟨_, CSet.all_split h, map_splitAt_str _⟩, ?_, ?_, ?_, CSet.contains_sound h, ?_⟩
  · rw [CSet.size_eq h, List.length_map]
  · cases h with
    | nil => rfl
    | @cons _ set es cs ess h1 h2 h3 =>
      cases es with
      | nil => exact absurd rfl h2
      | cons e es => rw [CSet.first_eq (.cons h1 h2 h3)]; rfl
  · by_cases hne : ess.flatten = []
    · have : ess = [] := by
        cases h with
        | nil => rfl
        | cons h1 h2 h3 => simp at hne; exact absurd hne.1 h2
      subst this
      rw [h.nil_iff.2 rfl]; rfl
    · rw [CSet.last_eq h hne, List.getLast?_map, List.getLast?_eq_some_getLast hne]; rfl
  · intro hs x
    have h1 := CSet.contains_sorted h hs x
    obtain ⟨b, i, q1, q2, _⟩ := CSet.contains_sound h x
    rw [h1] at q1
    simp only [Option.some.injEq, Prod.mk.injEq] at q1
    exact ⟨h1, by rw [q2, ← q1.1]⟩

theorem CShows.unique {s : CSet} {es fs : List Bytes} (h1 : CShows s es) (h2 : CShows s fs) : es = fs :=
  Option.some.inj (h1.1.symm.trans h2.1)

/-- **C27** (building). For every chunk size, building from a strictly increasing sequence: every insertion succeeds, and the set has exactly
these elements; the same can be seen in a `LinearSortedStringSet` built from them (`C26_from_sorted`). -/
theorem C27_build_sorted {n : Nat} (hn : 0 < n) {src : List Bytes} (hs : src.Pairwise (· < ·)) (hl : ∀ e ∈ src, e.length < 2 ^ 63) :
    ∃ b, (CSet.CBuilder.new n).insertAll src = some (src.map (fun _ => .yes), b) ∧ CShows b.build.1 src := by
  obtain ⟨b, ess, h1, h2, _, _, _, h4, _⟩ := CSet.build_spec hn hl
  have hsp := insertSpec_sorted (l := none) (after_none.2 hs)
  rw [hsp] at h1 h4
  refine ⟨b, h1, ?_⟩
  have := cshows_of h2
  rwa [h4] at this

/-- **C27** (the builder). The same results and elements as for `LinearSortedStringSet::Builder`, for any calls of `TryInsertNext`; there are
at most `n` elements in each chunk, and exactly `n` except possibly in the last one. -/
theorem C27_builder {n : Nat} (hn : 0 < n) {src : List Bytes} (hl : ∀ e ∈ src, e.length < 2 ^ 63) :
    ∃ b, (CSet.CBuilder.new n).insertAll src = some ((insertions none src).1, b) ∧ CShows b.build.1 (insertions none src).2 ∧
      (insertions none src).2.Pairwise (· < ·) ∧ b.size = (insertions none src).2.length ∧ b.last = (insertions none src).2.getLast? ∧
      b.build.2 = .new n ∧
      (∀ c ∈ b.build.1, ∃ k, StrSet.size c.set = some k ∧ 0 < k ∧ k ≤ n) ∧ (∀ c ∈ b.build.1.dropLast, StrSet.size c.set = some n) := by
  obtain ⟨b, ess, h1, h2, h3, h4, h5, h6, h7, h8, h9⟩ := CSet.build_spec hn hl
  rw [insertions_eq]
  refine ⟨b, h1, ?_, after_none.1 (insertSpec_after none src), ?_, ?_, h9, ?_, ?_⟩
  · rw [← h6]; exact cshows_of h2
  · rw [h7, ← h6, List.length_map]
  · rw [h8, ← h6, List.getLast?_map]; rfl
  · intro c hc
    obtain ⟨k, hk, he⟩ := List.mem_iff_getElem.1 hc
    obtain ⟨es, q1, q2, q3, q4⟩ := h2.at (k := k) (c := c) (by rw [List.getElem?_eq_some_iff]; exact ⟨hk, he⟩)
    exact ⟨_, StrSet.size_eq q3, List.length_pos_iff.2 q2, h4 es (List.mem_of_getElem? q1)⟩
  · intro c hc
    obtain ⟨k, hk, he⟩ := List.mem_iff_getElem.1 hc
    rw [List.length_dropLast] at hk
    rw [List.getElem_dropLast] at he
    obtain ⟨es, q1, q2, q3, q4⟩ := h2.at (k := k) (c := c) (by rw [List.getElem?_eq_some_iff]; exact ⟨by omega, he⟩)
    rw [StrSet.size_eq q3, h5 es]
    refine List.mem_of_getElem? (i := k) ?_
    rw [List.getElem?_dropLast, if_pos, q1]
    have := h2.length_eq
    omega

/-- A set which can exist: built by a builder, or decoded from any bytes with any options, or converted from a `LinearSortedStringSet`. -/
def CExists (s : CSet) : Prop :=
  (∃ n src r, 0 < n ∧ (∀ e ∈ src, e.length < 2 ^ 63) ∧ (CSet.CBuilder.new n).insertAll src = some r ∧ r.2.build.1 = s) ∨
  (∃ src o rest, CSet.decode src o = some (.ok (s, rest))) ∨
  (∃ set, Exists set ∧ CSet.ofLinear set = some s)

theorem cexists_iff {s : CSet} : CExists s → ∃ ess, CSet.CRep 0 s ess := by
  rintro (⟨n, src, r, hn, h1, h2, h3⟩ | ⟨src, o, rest, h⟩ | ⟨set, h1, h2⟩)
  · obtain ⟨b, ess, q1, q2, _⟩ := CSet.build_spec hn h1
    rw [q1] at h2
    cases h2
    rw [← h3]
    exact ⟨ess, q2⟩
  · rcases CSet.decode_cases src o with ⟨err, g1, _⟩ | ⟨v, body, rest', cs, _, _, _, g4, _, _, g6⟩
    · rw [h] at g1; cases g1
    · rw [h] at g6
      simp only [Option.some.injEq, Except.ok.injEq, Prod.mk.injEq] at g6
      rw [g6.1]
      exact ⟨_, g4.rep 0⟩
  · obtain ⟨es, he⟩ := exists_iff h1
    unfold CSet.ofLinear at h2
    by_cases h0 : set = []
    · rw [if_pos h0] at h2
      cases h2
      exact ⟨[], .nil 0⟩
    · rw [if_neg h0, size_eq he] at h2
      simp only [Option.bind_eq_bind, Option.bind_some, Option.some.injEq] at h2
      rw [← h2]
      refine ⟨[es], ?_⟩
      have := CSet.CRep.cons (n := 0) he (fun h => h0 (he.nil_iff.2 h)) (.nil _)
      rwa [Nat.zero_add] at this

/-- **C27** (safety). Whatever bytes a set was decoded from, no operation on it fails an assertion, and all of them agree about its
elements. -/
theorem C27_any_set {s : CSet} (h : CExists s) : ∃ es, CShows s es := by
  obtain ⟨es, he⟩ := cexists_iff h
  exact ⟨_, cshows_of he⟩

/-- **C27** (conversion). A `ChunkedSortedStringSet` made from a `LinearSortedStringSet` has the same elements, and `TheChunk()` returns it back. -/
theorem C27_of_linear {set : Bytes} {es : List Bytes} (h : Exists set) (hs : Shows set es) :
    ∃ s, CSet.ofLinear set = some s ∧ CShows s es ∧ CSet.theChunk s = some set := by
  obtain ⟨fs, hf⟩ := exists_iff h
  have := (shows_of hf).unique hs
  subst this
  by_cases h0 : set = []
  · refine ⟨[], by rw [CSet.ofLinear, if_pos h0], ?_, by rw [h0]; rfl⟩
    rw [hf.nil_iff.1 h0]
    exact cshows_of (.nil 0)
  · refine ⟨[⟨set, fs.length⟩], by rw [CSet.ofLinear, if_neg h0, size_eq hf]; rfl, ?_, rfl⟩
    have h1 := CSet.CRep.cons (n := 0) hf (fun h => h0 (hf.nil_iff.2 h)) (.nil _)
    rw [Nat.zero_add] at h1
    have := cshows_of h1
    simpa using this

/-- **C27** (decoding). `Decode()` of arbitrary bytes does not fail an assertion; it fails, or gives a set, whose elements are strictly
increasing if it validates. -/
theorem C27_decode_any (src : Bytes) (o : CSet.DecodeOptions) :
    ∃ r, CSet.decode src o = some r ∧ ∀ s rest, r = .ok (s, rest) → ∃ es pre, CShows s es ∧ src = pre ++ rest ∧
      (o.validate = true → es.Pairwise (· < ·)) ∧ s.length ≤ o.maxNumChunks ∧ ∀ c ∈ s, c.set.length ≤ o.maxEncodedChunkSize := by
  rcases CSet.decode_cases src o with ⟨err, g1, _⟩ | ⟨v, body, rest', cs, g1, g2, g3, g4, g5, g6, g7⟩
  · exact ⟨_, g1, by intro _ _ h; cases h⟩
  · refine ⟨_, g7, ?_⟩
    intro s rest he
    simp only [Except.ok.injEq, Prod.mk.injEq] at he
    obtain ⟨rfl, rfl⟩ := he
    have hc : ∀ (n : Nat) (cs : List (Bytes × List (Nat × Bytes))), (CSet.cumul n cs).map (·.set) = cs.map (·.1) := by
      intro n cs
      induction cs generalizing n with
      | nil => rfl
      | cons c cs ih => simp [CSet.cumul, ih]
    refine ⟨_, v ++ body, cshows_of (g4.rep 0), by rw [g1, List.append_assoc], g6, ?_, ?_⟩
    · have := congrArg List.length (hc 0 cs)
      simp at this
      omega
    · intro c hcm
      have h1 : c.set ∈ cs.map (·.1) := by rw [← hc 0 cs]; exact List.mem_map.2 ⟨c, hcm, rfl⟩
      obtain ⟨p, p1, p2⟩ := List.mem_map.1 h1
      rw [← p2]; exact g5 p p1

/-- **C27** (what the decoder accepts). `Decode()` succeeds exactly for a varint with the number of chunks followed by so many nonempty
well-formed chunks, within the limits; if it validates, elements are increasing across all chunks. -/
theorem C27_decode_accepts (src : Bytes) (o : CSet.DecodeOptions) :
    (∃ r, CSet.decode src o = some (.ok r)) ↔
      ∃ v body rest cs, src = v ++ (body ++ rest) ∧ Varint64 v cs.length ∧ cs.length ≤ o.maxNumChunks ∧ CSet.EncodedChunks body cs ∧
        (∀ c ∈ cs, c.1.length ≤ o.maxEncodedChunkSize) ∧ (o.validate = true → ((cs.map (·.2)).flatten.map (·.2)).Pairwise (· < ·)) := by
  rcases CSet.decode_cases src o with ⟨err, g1, g2⟩ | ⟨v, body, rest', cs, g1, g2, g3, g4, g5, g6, g7⟩
  · rw [g1]
    refine ⟨?_, fun h => absurd h g2⟩
    rintro ⟨r, h⟩; cases h
  · rw [g7]
    exact ⟨fun _ => ⟨v, body, rest', cs, g1, g2, g3, g4, g5, g6⟩, fun _ => ⟨_, rfl⟩⟩

/-- **C27** (encoding and decoding). Whatever follows it, the encoding of a set with sorted elements is decoded back to the same set, with the same
chunks; its length is `EncodedSize()`. -/
theorem C27_round_trip {s : CSet} {es : List Bytes} (h : CExists s) (hs : CShows s es) (hn : s.length < 2 ^ 64)
    (hb : ∀ c ∈ s, c.set.length < 2 ^ 64) {o : CSet.DecodeOptions} (h1 : s.length ≤ o.maxNumChunks)
    (h2 : ∀ c ∈ s, c.set.length ≤ o.maxEncodedChunkSize) (hv : o.validate = true → es.Pairwise (· < ·)) (rest : Bytes) :
    CSet.decode (CSet.encode s ++ rest) o = some (.ok (s, rest)) ∧ (CSet.encode s).length = CSet.encodedSize s := by
  obtain ⟨ess, hr⟩ := cexists_iff h
  have := (cshows_of hr).unique hs
  subst this
  exact ⟨CSet.decode_encode hr hn hb o hv h1 h2 rest, CSet.encode_length hn hb⟩

/-- **C27** (ordering). `Compare(a, b)` is the lexicographic order of the sequences of elements, whatever the chunks are. -/
theorem C27_compare {a b : CSet} {es fs : List Bytes} (ha : CExists a) (hb : CExists b) (hes : CShows a es) (hfs : CShows b fs) :
    ∃ o, CSet.compare a b = some o ∧ (o = .lt ↔ es < fs) ∧ (o = .eq ↔ es = fs) ∧ (o = .gt ↔ fs < es) := by
  obtain ⟨as, ra⟩ := cexists_iff ha
  obtain ⟨bs, rb⟩ := cexists_iff hb
  have := (cshows_of ra).unique hes
  subst this
  have := (cshows_of rb).unique hfs
  subst this
  exact ⟨_, CSet.compare_eq ra rb, cmpList_lt_iff, cmpList_eq_iff, cmpList_gt_iff⟩

/-- **C27** (equality). `a == b` implies that the elements are the same. -/
theorem C27_equal {a b : CSet} {es fs : List Bytes} (ha : CExists a) (hb : CExists b) (hes : CShows a es) (hfs : CShows b fs) :
    ∃ r, CSet.equal a b = some r ∧ (r = true → es = fs) := by
  obtain ⟨as, ra⟩ := cexists_iff ha
  obtain ⟨bs, rb⟩ := cexists_iff hb
  have := (cshows_of ra).unique hes
  subst this
  have := (cshows_of rb).unique hfs
  subst this
  obtain ⟨r, h1, h2⟩ := CSet.equal_iff ra rb
  exact ⟨r, h1, fun h => (h2.1 h).1⟩

/-- Chunks of `n` elements, except that the last can be smaller: they are determined by the elements. -/
theorem chunks_unique {n : Nat} {es : List (List (Nat × Bytes))} : ∀ {fs : List (List (Nat × Bytes))},
    (∀ e ∈ es, Canon [] e ∧ e.length ≤ n ∧ e ≠ []) → (∀ e ∈ es.dropLast, e.length = n) →
    (∀ e ∈ fs, Canon [] e ∧ e.length ≤ n ∧ e ≠ []) → (∀ e ∈ fs.dropLast, e.length = n) →
    es.flatten.map (·.2) = fs.flatten.map (·.2) → es = fs := by
  induction es with
  | nil =>
    intro fs _ _ h3 _ h
    cases fs with
    | nil => rfl
    | cons f fs =>
      simp at h
      exact absurd h.1 (h3 f (by simp)).2.2
  | cons e es ih =>
    intro fs h1 h2 h3 h4 h
    cases fs with
    | nil =>
      simp at h
      exact absurd h.1 (h1 e (by simp)).2.2
    | cons f fs =>
      simp only [List.flatten_cons, List.map_append] at h
      have hl : e.length = f.length := by
        have hlen := congrArg List.length h
        simp only [List.length_append, List.length_map] at hlen
        have e1 := (h1 e (by simp)).2.1
        have f1 := (h3 f (by simp)).2.1
        by_cases he : es = []
        · by_cases hf : fs = []
          · subst he hf; simpa using hlen
          · have := h4 f (by rw [List.dropLast_cons_of_ne_nil hf]; simp)
            subst he
            simp only [List.flatten_nil, List.length_nil] at hlen
            omega
        · have h5 := h2 e (by rw [List.dropLast_cons_of_ne_nil he]; simp)
          by_cases hf : fs = []
          · subst hf
            simp only [List.flatten_nil, List.length_nil] at hlen
            omega
          · have := h4 f (by rw [List.dropLast_cons_of_ne_nil hf]; simp)
            omega
      obtain ⟨q1, q2⟩ := List.append_inj h (by simpa using hl)
      have := Canon.eq (h1 e (by simp)).1 (h3 f (by simp)).1 q1
      subst this
      have hd : ∀ {gs : List (List (Nat × Bytes))}, (∀ x ∈ (e :: gs).dropLast, x.length = n) → ∀ x ∈ gs.dropLast, x.length = n := by
        intro gs hg x hx
        refine hg x ?_
        cases gs with
        | nil => simp at hx
        | cons g gs => rw [List.dropLast_cons_of_ne_nil (by simp)]; exact List.mem_cons_of_mem _ hx
      rw [ih (fun x hx => h1 x (by simp [hx])) (hd h2) (fun x hx => h3 x (by simp [hx])) (hd h4) q2]

theorem chunks_nonempty {n : Nat} {s : CSet} {ess : List (List (Nat × Bytes))} (h : CSet.CRep n s ess) : ∀ e ∈ ess, e ≠ [] := by
  induction h with
  | nil => simp
  | cons h1 h2 h3 ih =>
    intro e he
    rcases List.mem_cons.1 he with rfl | he
    · exact h2
    · exact ih e he

/-- **C27** (equality of sets built with the same chunk size): it is equality of elements. -/
theorem C27_equal_built {n : Nat} (hn : 0 < n) {src src' : List Bytes} (h : ∀ e ∈ src, e.length < 2 ^ 63) (h' : ∀ e ∈ src', e.length < 2 ^ 63)
    {r r' : List Inserted × CSet.CBuilder} (hr : (CSet.CBuilder.new n).insertAll src = some r)
    (hr' : (CSet.CBuilder.new n).insertAll src' = some r') {es fs : List Bytes} (hes : CShows r.2.build.1 es) (hfs : CShows r'.2.build.1 fs) :
    CSet.equal r.2.build.1 r'.2.build.1 = some (decide (es = fs)) := by
  obtain ⟨b, as, q1, q2, q3, q4, q5, _⟩ := CSet.build_spec hn h
  obtain ⟨b', bs, p1, p2, p3, p4, p5, _⟩ := CSet.build_spec hn h'
  rw [hr] at q1
  rw [hr'] at p1
  have e1 := Option.some.inj q1
  have e2 := Option.some.inj p1
  rw [e1] at hes ⊢
  rw [e2] at hfs ⊢
  simp only at hes hfs ⊢
  have := (cshows_of q2).unique hes
  subst this
  have := (cshows_of p2).unique hfs
  subst this
  obtain ⟨r, h1, h2⟩ := CSet.equal_iff q2 p2
  rw [h1]
  congr 1
  rw [Bool.eq_iff_iff, h2, decide_eq_true_iff]
  constructor
  · exact fun h => h.1
  · intro h
    refine ⟨h, ?_⟩
    have := chunks_unique (fun e he => ⟨q3 e he, q4 e he, chunks_nonempty q2 e he⟩) q5 (fun e he => ⟨p3 e he, p4 e he, chunks_nonempty p2 e he⟩) p5 h
    subst this
    intro i x y hx hy
    rw [hx] at hy
    cases hy
    exact Nat.le_refl _

/-- "apple". -/
def apple : Bytes := [97, 112, 112, 108, 101]
/-- "apply". -/
def apply : Bytes := [97, 112, 112, 108, 121]

theorem apples_sorted : [apple, apply].Pairwise (· < ·) := by decide

theorem apples_short : ∀ e ∈ [apple, apply], e.length < 2 ^ 63 := by decide

/-- **C27** (finding 15): for `{"apple", "apply"}` built with chunk size 1 and with chunk size 2, `Compare` returns `equal`, but `==` returns `false`;
in the other order it returns `true`. -/
theorem C27_equal_fails : ∃ r1 r2, (CSet.CBuilder.new 1).insertAll [apple, apply] = some r1 ∧
    (CSet.CBuilder.new 2).insertAll [apple, apply] = some r2 ∧ CShows r1.2.build.1 [apple, apply] ∧ CShows r2.2.build.1 [apple, apply] ∧
    CSet.compare r1.2.build.1 r2.2.build.1 = some .eq ∧ CSet.equal r1.2.build.1 r2.2.build.1 = some false ∧
    CSet.equal r2.2.build.1 r1.2.build.1 = some true := by
  obtain ⟨b, as, q1, q2, q3, q4, q5, q6, _⟩ := CSet.build_spec (n := 1) (by omega) apples_short
  obtain ⟨b', bs, p1, p2, p3, p4, p5, p6, _⟩ := CSet.build_spec (n := 2) (by omega) apples_short
  have hsp := insertSpec_sorted (l := none) (after_none.2 apples_sorted)
  rw [hsp] at q6 p6
  have ea : as = [[(0, apple)], [(0, apply)]] := by
    refine chunks_unique (fun e he => ⟨q3 e he, q4 e he, chunks_nonempty q2 e he⟩) q5 ?_ (by decide) q6
    intro e he
    simp only [List.mem_cons, List.not_mem_nil, or_false] at he
    rcases he with rfl | rfl
    · exact ⟨⟨by decide, trivial⟩, by decide, by decide⟩
    · exact ⟨⟨by decide, trivial⟩, by decide, by decide⟩
  have eb : bs = [[(0, apple), (4, apply)]] := by
    refine chunks_unique (fun e he => ⟨p3 e he, p4 e he, chunks_nonempty p2 e he⟩) p5 ?_ (by decide) p6
    intro e he
    simp only [List.mem_cons, List.not_mem_nil, or_false] at he
    subst he
    exact ⟨⟨by decide, by decide, trivial⟩, by decide, by decide⟩
  subst ea eb
  refine ⟨_, _, q1, p1, cshows_of q2, cshows_of p2, CSet.compare_eq q2 p2, ?_, ?_⟩
  · obtain ⟨r, h1, h2⟩ := CSet.equal_iff q2 p2
    rw [h1]
    cases r with
    | false => rfl
    | true => exact absurd ((h2.1 rfl).2 1 _ _ rfl rfl) (by decide)
  · obtain ⟨r, h1, h2⟩ := CSet.equal_iff p2 q2
    rw [h1, h2.2]
    refine ⟨rfl, ?_⟩
    intro i x y hx hy
    match i with
    | 0 => simp at hx hy; rw [← hx, ← hy]; decide
    | 1 => simp at hx hy; rw [← hx, ← hy]; decide
    | n + 2 => simp at hx

/-! ## Examples: the hypotheses are met -/

/-- A set built from two strings, of which the second shares a prefix. -/
example : ∃ set, fromSorted [apple, apply] = some set ∧ plainIter.all set = some [apple, apply] ∧
    contains set apply = some (true, 1) ∧ contains set [98] = some (false, 2) := by
  obtain ⟨set, h1, h2⟩ := C26_from_sorted apples_sorted apples_short
  exact ⟨set, h1, h2.1, h2.2.2.2.2.2.2 apples_sorted _, h2.2.2.2.2.2.2 apples_sorted _⟩

/-- Insertions of an equal and of a smaller element are refused. -/
example : (insertions none [apple, apple, apply, apple]) = ([.yes, .no, .yes, .unsorted], [apple, apply]) := by
  simp [insertions, apple, apply, List.cons_lt_cons_iff]

/-- Sets which exist, with the same elements. -/
example : Exists plainSet ∧ Exists sharedSet ∧ Shows plainSet [[97, 98], [97, 99]] ∧ Shows sharedSet [[97, 98], [97, 99]] := by
  refine ⟨.inr ?_, .inr ?_, shows_of plainSet_rep, shows_of sharedSet_rep⟩
  · obtain ⟨st, h⟩ := decode_encode plainSet_rep (by decide) (o := validating) (by decide) (fun _ => after_none.2 (by decide)) []
    exact ⟨_, _, _, _, h⟩
  · obtain ⟨st, h⟩ := decode_encode sharedSet_rep (by decide) (o := validating) (by decide) (fun _ => after_none.2 (by decide)) []
    exact ⟨_, _, _, _, h⟩

/-- The empty element and the empty set. -/
example : ∃ set, fromSorted [[], [0]] = some set ∧ StrSet.first set = some [] ∧ StrSet.last set = some [0] ∧ StrSet.size set = some 2 := by
  obtain ⟨set, h1, h2⟩ := C26_from_sorted (src := [[], [0]]) (by decide) (by decide)
  exact ⟨set, h1, h2.2.2.2.1, h2.2.2.2.2.1, h2.2.2.1⟩

/-- Malformed input is rejected: a shared length longer than the previous element (here there is none). -/
example : ∃ e, StrSet.decode [2, 3, 0] validating = some (.error e) := by
  obtain ⟨r, h1, h2⟩ := C26_decode_any [2, 3, 0] validating
  cases r with
  | error e => exact ⟨e, h1⟩
  | ok r =>
    obtain ⟨v, set, rest, es, g1, g2, g3, g4, _⟩ := (C26_decode_accepts [2, 3, 0] validating rfl).1 ⟨r, h1⟩
    exfalso
    obtain ⟨e1, e2, e3⟩ := CSet.varint_unique (v := [2]) (r := [3, 0]) (x := 2) (varint_small (by decide)) g2 g1
    have hlen := congrArg List.length e2
    simp only [List.length_append, List.length_cons, List.length_nil] at hlen
    have hrest : rest = [] := List.eq_nil_of_length_eq_zero (by omega)
    subst hrest
    rw [List.append_nil] at e2
    subst e2
    generalize he : ([3, 0] : Bytes) = set at g4
    cases g4 with
    | nil => cases he
    | @unshared _ v u rest es hv hr =>
      obtain ⟨_, _, e⟩ := CSet.varint_unique (v := [3]) (r := [0]) (x := 3) (varint_small (by decide)) hv he
      omega
    | shared hv hw hs hr => simp at hs

end Riegeli.Props
