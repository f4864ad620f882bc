import Verif.ChainRest
/-!
# Chain: comparison, hashing and positions

`Chain::Compare()`, `HashValue()`, `CharIndexInChain()` and `BlockAndCharIndex()`. They walk over the
fragments of a chain (`blocks()`).
-/
namespace Riegeli.Chn

/-! ### Model -/

/-- `std::memcmp()` of two areas of the same length. -/
def memcmp : Bytes → Bytes → Ordering
  | a :: as, b :: bs => if a.toNat < b.toNat then .lt else if b.toNat < a.toNat then .gt else memcmp as bs
  | _, _ => .eq

/-- The loop of `Chain::Compare(const Chain&, const Chain&)` (`chain.cc:1958-1994`): `as` and `bs` are the
fragments which `a_iter` and `b_iter` go over, `i` and `j` are `this_pos` and `that_pos`. -/
def compareLoop : List Bytes → Nat → List Bytes → Nat → Ordering
  | [], _, bs, _ => if bs.all (·.isEmpty) then .eq else .lt
  | a :: as, _, [], _ => if (a :: as).all (·.isEmpty) then .eq else .gt
  | a :: as, i, b :: bs, j =>
    let n := min (a.length - i) (b.length - j)
    match memcmp (slice a i n) (slice b j n) with
    | .eq =>
      if i + n = a.length then
        if j + n = b.length then compareLoop as 0 bs 0 else compareLoop as 0 (b :: bs) (j + n)
      else if j + n = b.length then compareLoop (a :: as) (i + n) bs 0
      else .eq -- unreachable: `n` is the rest of one of the fragments
    | o => o
termination_by as _ bs _ => as.length + bs.length

/-- `Chain::Compare(const Chain&, const Chain&)` (`chain.cc:1958-1994`). -/
def compareChains (H : Heap) (a b : Ch) : Option Ordering := do
  let fa ← fragments H a
  let fb ← fragments H b
  some (compareLoop fa 0 fb 0)

/-- The loop of `Chain::Compare(const Chain&, string_view)` (`chain.cc:1996-2023`). -/
def compareStrLoop (b : Bytes) : List Bytes → Nat → Nat → Ordering
  | [], _, j => if j = b.length then .eq else .lt
  | a :: as, i, j =>
    if j = b.length then if (a :: as).all (·.isEmpty) then .eq else .gt
    else
      let n := min (a.length - i) (b.length - j)
      match memcmp (slice a i n) (slice b j n) with
      | .eq =>
        if i + n = a.length then compareStrLoop b as 0 (j + n)
        else if n = 0 then .eq -- unreachable
        else compareStrLoop b (a :: as) (i + n) (j + n)
      | o => o
termination_by as _ j => (as.length, b.length - j)
decreasing_by
  · exact Prod.Lex.left _ _ (by simp)
  · apply Prod.Lex.right
    simp only [n] at *
    omega

/-- `Chain::Compare(const Chain&, string_view)` (`chain.cc:1996-2023`). -/
def compareStr (H : Heap) (a : Ch) (b : Bytes) : Option Ordering :=
  (fragments H a).map fun fa => compareStrLoop b fa 0 0

/-- `operator==` of chains (`chain_base.h:352-354`). -/
def equalChains (H : Heap) (a b : Ch) : Option Bool :=
  if a.size = b.size then (compareChains H a b).map (· == .eq) else some false

/-- `operator==` with a string (`chain_base.h:359-361`). -/
def equalStr (H : Heap) (a : Ch) (b : Bytes) : Option Bool :=
  if a.size = b.length then (compareStr H a b).map (· == .eq) else some false

/-- A hash state (`HashState` of `AbslHashValue`): `HashState::combine_contiguous()` for an array of
characters, and `HashState::combine()` for a `size_t`. Nothing is assumed about them. -/
structure Hasher where
  State : Type
  bytes : State → Bytes → State
  size : State → Nat → State

/-- The loop `while (block.size() >= kChunkSize)` (`chain_details.h:1178-1182`), the rest of the block. -/
def hashFull (h : Hasher) (st : h.State) (block : Bytes) : h.State × Bytes :=
  if 256 ≤ block.length then hashFull h (h.bytes st (block.take 256)) (block.drop 256) else (st, block)
termination_by block.length
decreasing_by simp; omega

/-- The loop of `Chain::HashValue()` over all blocks but the last one (`chain_details.h:1159-1185`);
`buf` are the first `position` characters of `chunk`. -/
def hashLoop (h : Hasher) (st : h.State) (buf : Bytes) : List Bytes → h.State × Bytes
  | [] => (st, buf)
  | block :: blocks =>
    if block.length < 256 - buf.length then hashLoop h st (buf ++ block) blocks
    else if 0 < buf.length then
      let remaining := 256 - buf.length
      let (st, rest) := hashFull h (h.bytes st (buf ++ block.take remaining)) (block.drop remaining)
      hashLoop h st rest blocks
    else
      let (st, rest) := hashFull h st block
      hashLoop h st rest blocks

/-- The loop `while (block.size() > kChunkSize)` (`chain_details.h:1208-1212`), the rest of the block. -/
def hashLast (h : Hasher) (st : h.State) (block : Bytes) : h.State × Bytes :=
  if 256 < block.length then hashLast h (h.bytes st (block.take 256)) (block.drop 256) else (st, block)
termination_by block.length
decreasing_by simp; omega

/-- The last block in `Chain::HashValue()` (`chain_details.h:1187-1216`), without the size. -/
def hashEnd (h : Hasher) (st : h.State) (buf block : Bytes) : h.State :=
  if block.length ≤ 256 - buf.length then
    if 0 < buf.length then h.bytes st (buf ++ block)
    else if block ≠ [] then h.bytes st block
    else st
  else
    let (st, block) :=
      if 0 < buf.length then
        (h.bytes st (buf ++ block.take (256 - buf.length)), block.drop (256 - buf.length))
      else (st, block)
    let (st, block) := hashLast h st block
    h.bytes st block

/-- `Chain::HashValue()` (`chain_details.h:1150-1217`). -/
def hashValue (h : Hasher) (H : Heap) (c : Ch) (st : h.State) : Option h.State :=
  if c.size = 0 then some (h.size st 0)
  else do
    let fs ← fragments H c
    let last ← fs.getLast?
    let (st, buf) := hashLoop h st [] fs.dropLast
    some (h.size (hashEnd h st buf last) c.size)

/-- `BlockIterator::CharIndexInChain()` of the iterator to block `k`, or to the end
(`chain.cc:290-312`). -/
def charIndexInChain (H : Heap) (c : Ch) (k : Nat) : Option Nat :=
  if c.blocks = [] then some (if c.size = 0 then 0 else if k = 0 then 0 else c.size)
  else if k = c.blocks.length then some c.size
  else
    match c.arr with
    | none =>
      match k with
      | 0 => some 0
      | 1 => do
        let b ← c.blocks[0]?
        sizeOf H b
      | _ => none
    | some a => do
      let base ← a.offs[0]?
      let o ← a.offs[k]?
      some (wrap (o + 2 ^ 64 - base))

/-- `std::upper_bound()` with the comparison of `BlockAndCharIndex()`: the index of the first element which
is greater than `i`, relatively to `base`, or the number of elements. The elements are ordered
(`offsets_sorted`), so `std::upper_bound()` finds this. -/
def upperBound (i base : Nat) (offs : List Nat) : Nat :=
  offs.findIdx fun o => decide (i < wrap (o + 2 ^ 64 - base))

/-- `Chain::BlockAndCharIndex()` (`chain.cc:708-739`): the index of the block (the number of blocks for
the end iterator), and the index within the block. -/
def blockAndCharIndex (H : Heap) (c : Ch) (i : Nat) : Option (Nat × Nat) :=
  if c.size < i then none
  else if i = c.size then some (if c.blocks = [] then (if c.size = 0 then 0 else 1) else c.blocks.length, 0)
  else if c.blocks = [] then some (0, i)
  else
    match c.arr with
    | none => do
      let b ← c.blocks[0]?
      let n ← sizeOf H b
      if n ≤ i then
        let b' ← c.blocks[1]?
        let n' ← sizeOf H b'
        if i - n < n' then some (1, i - n) else none
      else some (0, i)
    | some a => do
      let base ← a.offs[0]?
      let k := upperBound i base a.offs.tail
      let o ← a.offs[k]?
      some (k, i - wrap (o + 2 ^ 64 - base))

/-! ### Specification -/

/-- The lexicographic order of byte strings. -/
def lexCmp : Bytes → Bytes → Ordering
  | [], [] => .eq
  | [], _ :: _ => .lt
  | _ :: _, [] => .gt
  | a :: as, b :: bs => if a.toNat < b.toNat then .lt else if b.toNat < a.toNat then .gt else lexCmp as bs

/-- The hash of a byte string: of its parts of 256 bytes (the last one can be shorter). -/
def hashChunks (h : Hasher) (st : h.State) (d : Bytes) : h.State :=
  if d.length ≤ 256 then (if d = [] then st else h.bytes st d)
  else hashChunks h (h.bytes st (d.take 256)) (d.drop 256)
termination_by d.length
decreasing_by simp; omega

/-! ### Comparison -/

theorem lexCmp_self (a : Bytes) : lexCmp a a = .eq := by
  induction a with
  | nil => rfl
  | cons x a ih => simp [lexCmp, ih]

theorem lexCmp_eq {a b : Bytes} (h : lexCmp a b = .eq) : a = b := by
  induction a generalizing b with
  | nil => cases b with
    | nil => rfl
    | cons y b => simp [lexCmp] at h
  | cons x a ih => cases b with
    | nil => simp [lexCmp] at h
    | cons y b =>
      simp only [lexCmp] at h
      split at h
      · cases h
      · split at h
        · cases h
        · have : x = y := UInt8.toNat_inj.1 (by omega)
          rw [this, ih h]

theorem memcmp_append {p q : Bytes} (x y : Bytes) (h : p.length = q.length) :
    lexCmp (p ++ x) (q ++ y) = (memcmp p q).then (lexCmp x y) := by
  induction p generalizing q with
  | nil => cases q with
    | nil => simp [memcmp]
    | cons b q => simp at h
  | cons a p ih => cases q with
    | nil => simp at h
    | cons b q =>
      simp only [List.cons_append, lexCmp, memcmp]
      split
      · rfl
      · split
        · rfl
        · exact ih (by simpa using h)

theorem all_empty_iff (bs : List Bytes) : bs.all (·.isEmpty) = true ↔ bs.flatten = [] := by
  simp [List.flatten_eq_nil_iff]

theorem lexCmp_nil_left (b : Bytes) : lexCmp [] b = if b = [] then .eq else .lt := by
  cases b <;> simp [lexCmp]

theorem lexCmp_nil_right (a : Bytes) : lexCmp a [] = if a = [] then .eq else .gt := by
  cases a <;> simp [lexCmp]

theorem slice_split (a : Bytes) (i n : Nat) (rest : Bytes) :
    (a ++ rest).drop i = if i ≤ a.length then slice a i n ++ (a.drop (i + n) ++ rest) else (a ++ rest).drop i := by
  split
  · rename_i h
    rw [List.drop_append_of_le_length h, ← List.append_assoc]
    unfold slice
    rw [← List.drop_drop, List.take_append_drop]
  · rfl

/-- What a position in a list of fragments looks like. -/
def PosOk (as : List Bytes) (i : Nat) : Prop := i = 0 ∨ ∃ a as', as = a :: as' ∧ i < a.length

theorem PosOk.empty {as : List Bytes} {i : Nat} (h : PosOk as i) :
    as.flatten.drop i = [] ↔ as.all (·.isEmpty) = true := by
  rw [all_empty_iff]
  rcases h with rfl | ⟨a, as', rfl, h⟩
  · simp
  · have h1 : ((a :: as').flatten.drop i).length ≠ 0 := by
      rw [List.length_drop, List.flatten_cons, List.length_append]; omega
    have h2 : (a :: as').flatten.length ≠ 0 := by rw [List.flatten_cons, List.length_append]; omega
    constructor
    · intro h'; rw [h'] at h1; simp at h1
    · intro h'; rw [h'] at h2; simp at h2

theorem PosOk.le {a : Bytes} {as : List Bytes} {i : Nat} (h : PosOk (a :: as) i) : i ≤ a.length := by
  rcases h with rfl | ⟨b, bs, h, h'⟩
  · omega
  · cases h; omega

theorem slice_length' (a : Bytes) (i n : Nat) (h : i + n ≤ a.length) : (slice a i n).length = n := by
  simp [slice]; omega

theorem PosOk.split {a : Bytes} {as : List Bytes} {i : Nat} (h : PosOk (a :: as) i) (n : Nat)
    (hn : i + n ≤ a.length) :
    (a :: as).flatten.drop i = slice a i n ++ (a :: as).flatten.drop (i + n) := by
  rw [List.flatten_cons, List.drop_append_of_le_length h.le, List.drop_append_of_le_length hn,
    ← List.append_assoc]
  unfold slice
  rw [← List.drop_drop, List.take_append_drop]

theorem drop_first (a : Bytes) (as : List Bytes) {i : Nat} (h : i = a.length) :
    (a :: as).flatten.drop i = as.flatten.drop 0 := by
  simp [h]

theorem compareLoop_eq (as : List Bytes) (i : Nat) (bs : List Bytes) (j : Nat) :
    PosOk as i → PosOk bs j →
    compareLoop as i bs j = lexCmp (as.flatten.drop i) (bs.flatten.drop j) := by
  fun_induction compareLoop as i bs j with
  | case1 i bs j h =>
    intro hi hj
    rw [hj.empty.2 h, hi.empty.2 (by simp)]; rfl
  | case2 i bs j h =>
    intro hi hj
    rw [hi.empty.2 (by simp), lexCmp_nil_left, if_neg (by rw [hj.empty]; exact h)]
  | case3 i a as j h =>
    intro hi hj
    rw [hi.empty.2 h, hj.empty.2 (by simp)]; rfl
  | case4 i a as j h =>
    intro hi hj
    rw [hj.empty.2 (by simp), lexCmp_nil_right, if_neg (by rw [hi.empty]; exact h)]
  | case5 i a as j b bs n hm h1 h2 ih =>
    intro hi hj
    rw [hi.split n (by omega), hj.split n (by omega), memcmp_append _ _ (by
      rw [slice_length' _ _ _ (by omega), slice_length' _ _ _ (by omega)]), hm,
      drop_first _ _ h1, drop_first _ _ h2, ih (.inl rfl) (.inl rfl)]
    rfl
  | case6 i a as j b bs n hm h1 h2 ih =>
    intro hi hj
    have := hj.le
    rw [hi.split n (by omega), hj.split n (by omega), memcmp_append _ _ (by
      rw [slice_length' _ _ _ (by omega), slice_length' _ _ _ (by omega)]), hm,
      drop_first _ _ h1, ih (.inl rfl) (.inr ⟨_, _, rfl, by omega⟩)]
    rfl
  | case7 i a as j b bs n hm h1 h2 ih =>
    intro hi hj
    have := hi.le
    rw [hi.split n (by omega), hj.split n (by omega), memcmp_append _ _ (by
      rw [slice_length' _ _ _ (by omega), slice_length' _ _ _ (by omega)]), hm,
      drop_first _ _ h2, ih (.inr ⟨_, _, rfl, by omega⟩) (.inl rfl)]
    rfl
  | case8 i a as j b bs n hm h1 h2 =>
    intro hi hj
    have := hi.le
    have := hj.le
    omega
  | case9 a as i b bs j n ho =>
    intro hi hj
    have := hi.le
    have := hj.le
    have hn : n = min (a.length - i) (b.length - j) := rfl
    rw [hi.split n (by omega), hj.split n (by omega), memcmp_append _ _ (by
      rw [slice_length' _ _ _ (by omega), slice_length' _ _ _ (by omega)])]
    cases hm : memcmp (slice a i n) (slice b j n) with
    | eq => exact absurd hm ho
    | lt => simp_all
    | gt => simp_all

theorem compareStrLoop_eq (b : Bytes) (as : List Bytes) (i j : Nat) : PosOk as i → j ≤ b.length →
    compareStrLoop b as i j = lexCmp (as.flatten.drop i) (b.drop j) := by
  fun_induction compareStrLoop b as i j with
  | case1 i => 
    intro hi hj
    rw [hi.empty.2 (by simp)]; simp [lexCmp]
  | case2 i j h =>
    intro hi hj
    rw [hi.empty.2 (by simp), lexCmp_nil_left, if_neg (by simp; omega)]
  | case3 a as i h =>
    intro hi hj
    rw [hi.empty.2 h]; simp [lexCmp]
  | case4 a as i h =>
    intro hi hj
    rw [List.drop_length, lexCmp_nil_right, if_neg (by rw [hi.empty]; exact h)]
  | case5 a as i j h n hm h1 ih =>
    intro hi hj
    have hb : b.drop j = slice b j n ++ b.drop (j + n) := by
      unfold slice; rw [← List.drop_drop, List.take_append_drop]
    rw [hi.split n (by omega), hb, memcmp_append _ _ (by
      rw [slice_length' _ _ _ (by omega), slice_length' _ _ _ (by omega)]), hm,
      drop_first _ _ h1, ih (.inl rfl) (by omega)]
    rfl
  | case6 a as i j h n hm h1 h2 =>
    intro hi hj
    have := hi.le
    omega
  | case7 a as i j h n hm h1 h2 ih =>
    intro hi hj
    have := hi.le
    have hb : b.drop j = slice b j n ++ b.drop (j + n) := by
      unfold slice; rw [← List.drop_drop, List.take_append_drop]
    rw [hi.split n (by omega), hb, memcmp_append _ _ (by
      rw [slice_length' _ _ _ (by omega), slice_length' _ _ _ (by omega)]), hm,
      ih (.inr ⟨_, _, rfl, by omega⟩) (by omega)]
    rfl
  | case8 a as i j h n ho =>
    intro hi hj
    have := hi.le
    have hn : n = min (a.length - i) (b.length - j) := rfl
    have hb : b.drop j = slice b j n ++ b.drop (j + n) := by
      unfold slice; rw [← List.drop_drop, List.take_append_drop]
    rw [hi.split n (by omega), hb, memcmp_append _ _ (by
      rw [slice_length' _ _ _ (by omega), slice_length' _ _ _ (by omega)])]
    cases hm : memcmp (slice a i n) (slice b j n) with
    | eq => exact absurd hm ho
    | lt => rfl
    | gt => rfl

/-! ### Hashing -/

theorem hashChunks_step (h : Hasher) (st : h.State) (d : Bytes) (hd : 256 ≤ d.length) :
    hashChunks h st d = hashChunks h (h.bytes st (d.take 256)) (d.drop 256) := by
  by_cases h1 : d.length = 256
  · have : d ≠ [] := by intro h; rw [h] at hd; simp at hd
    rw [hashChunks.eq_def h st d, if_pos (by omega), if_neg this, List.take_of_length_le (by omega),
      List.drop_of_length_le (by omega), hashChunks.eq_def]
    simp
  · rw [hashChunks.eq_def h st d, if_neg (by omega)]

theorem hashFull_eq (h : Hasher) (st : h.State) (block rest : Bytes) :
    hashChunks h st (block ++ rest) = hashChunks h (hashFull h st block).1 ((hashFull h st block).2 ++ rest) ∧
      (hashFull h st block).2.length < 256 := by
  fun_induction hashFull h st block with
  | case1 st block hb ih =>
    rw [hashChunks_step _ _ _ (by simp; omega),
      List.take_append_of_le_length hb, List.drop_append_of_le_length hb]
    exact ih
  | case2 st block hb => exact ⟨rfl, Nat.not_le.1 hb⟩

theorem hashLast_eq (h : Hasher) (st : h.State) (block : Bytes) (hb : block ≠ []) :
    hashChunks h st block = h.bytes (hashLast h st block).1 (hashLast h st block).2 := by
  fun_induction hashLast h st block with
  | case1 st block hl ih =>
    rw [hashChunks.eq_def, if_neg (by omega)]
    exact ih (by intro h; have := congrArg List.length h; simp at this; omega)
  | case2 st block hl =>
    rw [hashChunks.eq_def, if_pos (by omega), if_neg hb]

theorem hashLoop_eq (h : Hasher) : ∀ (blocks : List Bytes) (st : h.State) (buf rest : Bytes),
    buf.length < 256 →
    hashChunks h st (buf ++ (blocks.flatten ++ rest)) =
      hashChunks h (hashLoop h st buf blocks).1 ((hashLoop h st buf blocks).2 ++ rest) ∧
      (hashLoop h st buf blocks).2.length < 256
  | [], st, buf, rest, hb => ⟨by simp [hashLoop], by simpa [hashLoop]⟩
  | block :: blocks, st, buf, rest, hb => by
    unfold hashLoop
    rw [List.flatten_cons, List.append_assoc]
    split
    · have := hashLoop_eq h blocks st (buf ++ block) rest (by simp; omega)
      rw [List.append_assoc] at this
      exact this
    · rename_i hs
      split
      · have e : buf ++ (block ++ (blocks.flatten ++ rest)) =
            (buf ++ block.take (256 - buf.length)) ++ (block.drop (256 - buf.length) ++ (blocks.flatten ++ rest)) := by
          rw [List.append_assoc, ← List.append_assoc (List.take _ _), List.take_append_drop]
        have hl : (buf ++ block.take (256 - buf.length)).length = 256 := by simp; omega
        obtain ⟨h1, h2⟩ := hashFull_eq h (h.bytes st (buf ++ block.take (256 - buf.length)))
          (block.drop (256 - buf.length)) (blocks.flatten ++ rest)
        rw [e, hashChunks_step _ _ _ (by rw [List.length_append]; omega),
          List.take_append_of_le_length (by omega), List.drop_append_of_le_length (by omega),
          List.take_of_length_le (by omega), List.drop_of_length_le (by omega), List.nil_append, h1]
        exact hashLoop_eq h blocks _ _ rest h2
      · have : buf = [] := List.eq_nil_of_length_eq_zero (by omega)
        subst this
        obtain ⟨h1, h2⟩ := hashFull_eq h st block (blocks.flatten ++ rest)
        rw [List.nil_append, h1]
        exact hashLoop_eq h blocks _ _ rest h2

theorem hashEnd_eq (h : Hasher) (st : h.State) (buf block : Bytes) (hb : buf.length < 256) :
    hashEnd h st buf block = hashChunks h st (buf ++ block) := by
  unfold hashEnd
  by_cases h1 : block.length ≤ 256 - buf.length
  · rw [if_pos h1]
    have e : hashChunks h st (buf ++ block) =
        if buf ++ block = [] then st else h.bytes st (buf ++ block) := by
      rw [hashChunks.eq_def, if_pos (by rw [List.length_append]; omega)]
    rw [e]
    by_cases h2 : 0 < buf.length
    · rw [if_pos h2, if_neg (by intro h; have := congrArg List.length h; simp at this; simp [this.1] at h2)]
    · have : buf = [] := List.eq_nil_of_length_eq_zero (by omega)
      subst this
      rw [if_neg h2, List.nil_append]
      by_cases h3 : block = [] <;> simp [h3]
  · rw [if_neg h1]
    by_cases h2 : 0 < buf.length
    · simp only [if_pos h2]
      have hl : (buf ++ block.take (256 - buf.length)).length = 256 := by simp; omega
      have e : buf ++ block = (buf ++ block.take (256 - buf.length)) ++ block.drop (256 - buf.length) := by
        rw [List.append_assoc, List.take_append_drop]
      have e2 : hashChunks h st (buf ++ block) =
          hashChunks h (h.bytes st (buf ++ block.take (256 - buf.length))) (block.drop (256 - buf.length)) := by
        rw [e, hashChunks_step _ _ _ (by rw [List.length_append]; omega),
          List.take_append_of_le_length (by omega), List.drop_append_of_le_length (by omega),
          List.take_of_length_le (l := buf ++ _) (by omega), List.drop_of_length_le (l := buf ++ _) (by omega),
          List.nil_append]
      rw [e2]
      exact (hashLast_eq h _ _ (by
        intro h; have := congrArg List.length h; rw [List.length_drop] at this; simp at this; omega)).symm
    · have : buf = [] := List.eq_nil_of_length_eq_zero (by omega)
      subst this
      simp only [if_neg h2, List.nil_append]
      exact (hashLast_eq h _ _ (by intro h; subst h; simp at h1)).symm

theorem hashValue_spec (h : Hasher) {H : Heap} {c : Ch} {E : List Nat} {d : Bytes} (r : Rep H c E d) (st : h.State) :
    hashValue h H c st = some (h.size (hashChunks h st d) d.length) := by
  have hs := r.size
  obtain ⟨fs, h1, h2⟩ := fragments_spec r
  unfold hashValue
  split
  · rename_i h0
    have : d = [] := List.eq_nil_of_length_eq_zero (by omega)
    subst this
    rw [hashChunks.eq_def]; simp
  · rename_i h0
    rcases List.eq_nil_or_concat fs with rfl | ⟨l, x, rfl⟩
    · simp at h2; subst h2; simp at hs; omega
    · rw [List.concat_eq_append] at h1 h2
      simp only [h1, Option.bind_eq_bind, Option.bind_some, List.getLast?_concat, List.dropLast_concat]
      obtain ⟨h3, h4⟩ := hashLoop_eq h l st [] x (by simp)
      rw [hashEnd_eq _ _ _ _ h4, ← h3, hs]
      simp at h2
      simp [h2]

theorem compareChains_spec {H : Heap} {a b : Ch} {E E' : List Nat} {d d' : Bytes} (r : Rep H a E d)
    (r' : Rep H b E' d') : compareChains H a b = some (lexCmp d d') := by
  obtain ⟨fs, h1, h2⟩ := fragments_spec r
  obtain ⟨fs', h1', h2'⟩ := fragments_spec r'
  simp [compareChains, h1, h1', compareLoop_eq fs 0 fs' 0 (.inl rfl) (.inl rfl), h2, h2']

theorem compareStr_spec {H : Heap} {a : Ch} {E : List Nat} {d : Bytes} (r : Rep H a E d) (b : Bytes) :
    compareStr H a b = some (lexCmp d b) := by
  obtain ⟨fs, h1, h2⟩ := fragments_spec r
  simp [compareStr, h1, compareStrLoop_eq b fs 0 0 (.inl rfl) (by omega), h2]

theorem lexCmp_beq (a b : Bytes) : (lexCmp a b == .eq) = decide (a = b) := by
  by_cases h : a = b
  · subst h; simp [lexCmp_self]
  · simp only [h, decide_false, beq_eq_false_iff_ne]
    exact fun h' => h (lexCmp_eq h')

theorem equalChains_spec {H : Heap} {a b : Ch} {E E' : List Nat} {d d' : Bytes} (r : Rep H a E d)
    (r' : Rep H b E' d') : equalChains H a b = some (decide (d = d')) := by
  unfold equalChains
  rw [compareChains_spec r r', ← r.size, ← r'.size]
  split
  · simp [lexCmp_beq]
  · rename_i h
    have : d ≠ d' := fun h' => h (by rw [h'])
    simp [this]

theorem equalStr_spec {H : Heap} {a : Ch} {E : List Nat} {d : Bytes} (r : Rep H a E d) (b : Bytes) :
    equalStr H a b = some (decide (d = b)) := by
  unfold equalStr
  rw [compareStr_spec r, ← r.size]
  split
  · simp [lexCmp_beq]
  · rename_i h
    have : d ≠ b := fun h' => h (by rw [h'])
    simp [this]

/-! ### Positions -/

theorem fragments_views {H : Heap} {c : Ch} {vs : List View} {E : List Nat} (a : Abs H c vs E)
    (hb : c.blocks ≠ []) : fragments H c = some (vs.map (·.data)) := by
  unfold fragments
  rw [if_neg hb, mapM_views a.views]

/-- Where block `k` begins. -/
def begins (vs : List View) (k : Nat) : Nat := (flat (vs.take k)).length

theorem begins_mono (vs : List View) {k l : Nat} (h : k ≤ l) : begins vs k ≤ begins vs l := by
  unfold begins
  have : vs.take k = (vs.take l).take k := by rw [List.take_take, Nat.min_eq_left h]
  rw [this]
  generalize vs.take l = ws
  have := congrArg (fun x => (flat x).length) (List.take_append_drop k ws)
  simp only [flat_append, List.length_append] at this
  omega

theorem offsFrom_get (b : Nat) (vs : List View) {k : Nat} (h : k < vs.length) :
    (offsFrom b vs)[k]? = some ((b + begins vs k) % 2 ^ 64) := by
  induction vs generalizing b k with
  | nil => simp at h
  | cons v vs ih =>
    cases k with
    | zero => simp [offsFrom, begins]
    | succ k =>
      simp only [offsFrom, List.getElem?_cons_succ]
      rw [ih _ (by simpa using h)]
      simp [begins, Nat.add_assoc]

theorem begins_le (vs : List View) (k : Nat) : begins vs k ≤ (flat vs).length := by
  have h := begins_mono vs (k := k) (l := max k vs.length) (by omega)
  have : begins vs (max k vs.length) = (flat vs).length := by
    unfold begins; rw [List.take_of_length_le (by omega)]
  omega

theorem wrap_rel (b n : Nat) (h : n ≤ maxSize) :
    wrap ((b + n) % 2 ^ 64 + 2 ^ 64 - (b + 0) % 2 ^ 64) = n := by
  unfold wrap
  unfold maxSize at h
  omega

/-- The offset of a block, relatively to the first one. -/
theorem rel_offset {a : Arr} {vs : List View} (h : ArrOk (some a) vs) (hm : (flat vs).length ≤ maxSize)
    (hne : vs ≠ []) :
    ∃ base, a.offs[0]? = some base ∧ a.offs.length = vs.length ∧
      ∀ k, k < vs.length → ∃ o, a.offs[k]? = some o ∧ wrap (o + 2 ^ 64 - base) = begins vs k := by
  obtain ⟨b, hb⟩ := h
  have h0 : 0 < vs.length := List.length_pos_iff.2 hne
  refine ⟨_, by rw [hb]; exact offsFrom_get b vs h0, by rw [hb]; simp, ?_⟩
  intro k hk
  refine ⟨_, by rw [hb]; exact offsFrom_get b vs hk, ?_⟩
  have := begins_le vs k
  exact wrap_rel b _ (by omega)

/-- The precondition of `std::upper_bound()`: the elements which are not greater than `i` are before those
which are greater. -/
theorem offsets_sorted {a : Arr} {vs : List View} (h : ArrOk (some a) vs) (hm : (flat vs).length ≤ maxSize)
    {base : Nat} (hb : a.offs[0]? = some base) {i k l o o' : Nat} (hk : a.offs[k]? = some o)
    (hl : a.offs[l]? = some o') (hkl : k ≤ l) (hi : i < wrap (o + 2 ^ 64 - base)) :
    i < wrap (o' + 2 ^ 64 - base) := by
  have hne : vs ≠ [] := by
    obtain ⟨b, hb'⟩ := h
    rintro rfl
    rw [hb'] at hb; simp [offsFrom] at hb
  obtain ⟨base', h1, h2, h3⟩ := rel_offset h hm hne
  rw [hb] at h1; cases h1
  have hk' := (List.getElem?_eq_some_iff.1 hk).1
  have hl' := (List.getElem?_eq_some_iff.1 hl).1
  obtain ⟨o1, e1, e2⟩ := h3 k (by omega)
  obtain ⟨o2, e3, e4⟩ := h3 l (by omega)
  rw [hk] at e1; cases e1
  rw [hl] at e3; cases e3
  have := begins_mono vs hkl
  omega

theorem begins_map (vs : List View) (k : Nat) : ((vs.map (·.data)).take k).flatten.length = begins vs k := by
  unfold begins
  rw [← List.map_take, flatten_data]

theorem charIndexInChain_spec {H : Heap} {c : Ch} {E : List Nat} {d : Bytes} (r : Rep H c E d)
    (hm : d.length ≤ maxSize) {fs : List Bytes} (hf : fragments H c = some fs) {k : Nat} (hk : k ≤ fs.length) :
    charIndexInChain H c k = some (fs.take k).flatten.length := by
  have hs := r.size
  obtain ⟨vs, a, w, hd⟩ := r
  unfold charIndexInChain
  by_cases hb : c.blocks = []
  · have hv := a.nil_iff.1 hb
    subst hv
    rw [if_pos hb]
    have hw := w.nil rfl
    have hl := a.short
    unfold fragments at hf
    rw [if_pos hb, shortData_some a w] at hf
    by_cases h0 : c.size = 0
    · simp [h0] at hf; subst hf; simp [h0]
    · simp [h0] at hf; subst hf
      have : k = 0 ∨ k = 1 := by simp at hk; omega
      rcases this with rfl | rfl
      · simp [h0]
      · simp [h0]; omega
  · have hne : vs ≠ [] := fun h => hb (a.nil_iff.2 h)
    rw [fragments_views a hb] at hf
    cases hf
    rw [if_neg hb, begins_map]
    simp at hk
    have hlen := a.length
    by_cases hkl : k = c.blocks.length
    · rw [if_pos hkl]
      have := w.cons hne
      rw [this]
      unfold begins
      rw [List.take_of_length_le (by omega)]
    · rw [if_neg hkl]
      have hkv : k < vs.length := by omega
      have hfl : (flat vs).length ≤ maxSize := by have := w.cons hne; omega
      cases harr : c.arr with
      | none =>
        have h2 : vs.length ≤ 2 := by have := a.arr; rw [harr] at this; exact this
        have : k = 0 ∨ k = 1 := by omega
        rcases this with rfl | rfl
        · simp [begins]
        · match vs, hkv, a.views with
          | v :: vs', _, hv =>
            match hcb : c.blocks, hv with
            | b :: bs, hv =>
              simp at hv
              simp [sizeOf, hv.1, begins]
            | [], hv => simp at hv
      | some ar =>
        have ha := a.arr
        rw [harr] at ha
        obtain ⟨base, h1, h2, h3⟩ := rel_offset ha hfl hne
        obtain ⟨o, h4, h5⟩ := h3 k hkv
        simp only [h1, h4, Option.bind_eq_bind, Option.bind_some, h5]

theorem blockAndCharIndex_spec {H : Heap} {c : Ch} {E : List Nat} {d : Bytes} (r : Rep H c E d)
    (hm : d.length ≤ maxSize) {fs : List Bytes} (hf : fragments H c = some fs) {i : Nat} (hi : i ≤ d.length) :
    ∃ k j, blockAndCharIndex H c i = some (k, j) ∧ (fs.take k).flatten.length + j = i ∧
      if i = d.length then k = fs.length ∧ j = 0 else ∃ f, fs[k]? = some f ∧ j < f.length := by
  have hs := r.size
  obtain ⟨vs, a, w, hd⟩ := id r
  have hfl : fs.flatten.length = d.length := by
    obtain ⟨fs', h1, h2⟩ := fragments_spec r
    rw [hf] at h1; cases h1; rw [h2]
  unfold blockAndCharIndex
  rw [if_neg (by omega)]
  by_cases hend : i = d.length
  · have hlf : (if c.blocks = [] then (if c.size = 0 then 0 else 1) else c.blocks.length) = fs.length := by
      by_cases hb : c.blocks = []
      · have hv := a.nil_iff.1 hb
        subst hv
        unfold fragments at hf
        rw [if_pos hb, shortData_some a w] at hf
        rw [if_pos hb]
        by_cases h0 : c.size = 0
        · simp [h0] at hf; subst hf; simp [h0]
        · simp [h0] at hf; subst hf; simp [h0]
      · rw [if_neg hb]
        rw [fragments_views a hb] at hf
        cases hf
        simp [a.length]
    rw [if_pos (by omega), hlf]
    refine ⟨_, _, rfl, ?_, ?_⟩
    · rw [List.take_of_length_le (by omega)]; omega
    · rw [if_pos hend]; exact ⟨rfl, rfl⟩
  · rw [if_neg (by omega)]
    simp only [if_neg hend]
    by_cases hb : c.blocks = []
    · have hv := a.nil_iff.1 hb
      subst hv
      have hl := a.short
      have hw := w.nil rfl
      rw [if_pos hb]
      unfold fragments at hf
      rw [if_pos hb, shortData_some a w] at hf
      have h0 : c.size ≠ 0 := by omega
      simp [h0] at hf
      subst hf
      exact ⟨0, i, rfl, by simp, _, by simp; rfl, by simp; omega⟩
    · have hne : vs ≠ [] := fun h => hb (a.nil_iff.2 h)
      rw [if_neg hb]
      rw [fragments_views a hb] at hf
      cases hf
      have hsz := w.cons hne
      have hlen := a.length
      -- it is enough to find the block
      have key : ∀ k, k < vs.length → begins vs k ≤ i → i < begins vs (k + 1) →
          ((vs.map (·.data)).take k).flatten.length + (i - begins vs k) = i ∧
          ∃ f, (vs.map (·.data))[k]? = some f ∧ i - begins vs k < f.length := by
        intro k hk h1 h2
        refine ⟨by rw [begins_map]; omega, vs[k].data, by simp [hk], ?_⟩
        have : begins vs (k + 1) = begins vs k + vs[k].data.length := by
          unfold begins
          rw [List.take_succ_eq_append_getElem hk]
          simp only [flat_append, flat_cons, flat_nil, List.length_append, List.append_nil]
        omega
      cases harr : c.arr with
      | none =>
        have h2 : vs.length ≤ 2 := by have := a.arr; rw [harr] at this; exact this
        obtain ⟨v, vs', rfl⟩ := List.exists_cons_of_ne_nil hne
        have hv0 := a.views
        · match hcb : c.blocks, hv0 with
          | [], hv => simp at hv
          | b :: bs, hv =>
            simp at hv
            have hb1 : begins (v :: vs') 1 = v.data.length := by simp [begins]
            simp only [List.getElem?_cons_zero, Option.bind_eq_bind, Option.bind_some, sizeOf, hv.1,
              Option.map_some]
            by_cases hn : v.data.length ≤ i
            · rw [if_pos hn]
              have hlt : i < (flat (v :: vs')).length := by omega
              have h2' : vs'.length ≤ 1 := by simpa using h2
              match vs', bs, hv.2, h2' with
              | [], _, _, _ => simp at hlt; omega
              | v' :: vs'', [], hv2, _ => simp at hv2
              | v' :: vs'', b' :: bs', hv2, h2' =>
                have : vs'' = [] := by simpa using h2'
                subst this
                simp at hv2
                simp at hlt
                simp only [List.getElem?_cons_succ, List.getElem?_cons_zero, Option.bind_some, hv2.1,
                  Option.map_some]
                rw [if_pos (by omega)]
                have hb2 : begins [v, v'] 2 = v.data.length + v'.data.length := by simp [begins]
                have := key 1 (by simp) (by omega) (by rw [hb2]; omega)
                rw [hb1] at this
                exact ⟨1, _, rfl, this⟩
            · rw [if_neg hn]
              have := key 0 (by simp) (by simp [begins]) (by rw [hb1]; omega)
              simp only [begins, List.take_zero, flat_nil, List.length_nil, Nat.sub_zero] at this
              exact ⟨0, _, rfl, this⟩
      | some ar =>
        have ha := a.arr
        rw [harr] at ha
        obtain ⟨base, h1, h2, h3⟩ := rel_offset ha (by omega) hne
        simp only [h1, Option.bind_eq_bind, Option.bind_some]
        have hpos : 0 < vs.length := List.length_pos_iff.2 hne
        generalize hk : upperBound i base ar.offs.tail = k
        have hkle : k ≤ vs.length - 1 := by
          rw [← hk]
          unfold upperBound
          have := List.findIdx_le_length (p := fun o => decide (i < wrap (o + 2 ^ 64 - base))) (xs := ar.offs.tail)
          rw [List.length_tail] at this
          omega
        obtain ⟨o, h4, h5⟩ := h3 k (by omega)
        simp only [h4, Option.bind_some, h5]
        have hlo : begins vs k ≤ i := by
          cases k with
          | zero => simp [begins]
          | succ k =>
            have hlt : k < ar.offs.tail.findIdx (fun o => decide (i < wrap (o + 2 ^ 64 - base))) := by
              unfold upperBound at hk; omega
            have := List.not_of_lt_findIdx hlt
            obtain ⟨o', h6, h7⟩ := h3 (k + 1) (by omega)
            obtain ⟨h8, h9⟩ := List.getElem?_eq_some_iff.1 h6
            simp only [List.getElem_tail, h9, decide_eq_false_iff_not] at this
            omega
        have hhi : i < begins vs (k + 1) := by
          by_cases hlast : k = vs.length - 1
          · have : begins vs (k + 1) = (flat vs).length := by
              unfold begins; rw [List.take_of_length_le (by omega)]
            omega
          · have hlt : ar.offs.tail.findIdx (fun o => decide (i < wrap (o + 2 ^ 64 - base))) < ar.offs.tail.length := by
              unfold upperBound at hk; rw [List.length_tail]; omega
            have := List.findIdx_getElem (w := hlt)
            obtain ⟨o', h6, h7⟩ := h3 (k + 1) (by omega)
            obtain ⟨h8, h9⟩ := List.getElem?_eq_some_iff.1 h6
            have hk' : List.findIdx (fun o => decide (i < wrap (o + 2 ^ 64 - base))) ar.offs.tail = k := hk
            simp only [List.getElem_tail, hk', h9, decide_eq_true_eq] at this
            omega
        exact ⟨k, _, rfl, key k (by omega) hlo hhi⟩

end Riegeli.Chn
