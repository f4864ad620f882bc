import Verif.ChainRead
import Verif.Props.Chain
/-!
# C36: comparing, hashing and indexing `Chain`s

In any program (`Reach`), where `Shows w s` says that chain `i` contains the bytes `s.at i`, the results of
`Compare()`, `==`, `AbslHashValue()`, `Flatten()`, `BlockAndCharIndex()` and `CharIndexInChain()` are those of
byte strings: they do not depend on how the bytes are split into blocks.
-/
namespace Riegeli.Props
open Riegeli Chn

variable {env : Env} {w : World} {s : Values}

theorem chain_rep (he : env.Ok) (r : Reach env w) (hs : Shows w s) {i : Nat} {c : Ch}
    (hc : w.chains[i]? = some c) : ∃ E, Rep w.heap c E (s.at i) := by
  obtain ⟨s0, v⟩ := r.inv he
  have := v.shows.unique hs
  subst this
  have hi : i < s0.chains.length := by
    rw [← v.len]; exact (List.getElem?_eq_some_iff.1 hc).1
  obtain ⟨c', h1, _, r1⟩ := v.lookup hi
  rw [hc] at h1; cases h1
  exact ⟨_, r1⟩

/-! ### Specification: the lexicographic order of byte strings -/

theorem lexCmp_lt_iff (a b : Bytes) : lexCmp a b = .lt ↔
    (∃ x bs, b = a ++ x :: bs) ∨
    ∃ p x y as bs, a = p ++ x :: as ∧ b = p ++ y :: bs ∧ x.toNat < y.toNat := by
  induction a generalizing b with
  | nil =>
    cases b with
    | nil => simp [lexCmp]
    | cons y b => simp [lexCmp]
  | cons x a ih =>
    cases b with
    | nil => simp [lexCmp]
    | cons y b =>
      rw [lexCmp]
      by_cases h1 : x.toNat < y.toNat
      · simp only [h1, if_true, true_iff]
        exact .inr ⟨[], x, y, a, b, rfl, rfl, h1⟩
      · by_cases h2 : y.toNat < x.toNat
        · simp only [h1, h2, if_true, if_false]
          refine ⟨fun h => by simp at h, ?_⟩
          rintro (⟨z, bs, h⟩ | ⟨p, u, v, as, bs, h3, h4, h5⟩)
          · simp at h; rw [h.1] at h2; omega
          · cases p with
            | nil =>
              simp at h3 h4
              rw [h3.1, h4.1] at h1; omega
            | cons q p =>
              simp at h3 h4
              rw [h3.1, h4.1] at h2; omega
        · have hxy : x = y := UInt8.toNat_inj.1 (by omega)
          subst hxy
          simp only [h1, if_false]
          rw [ih]
          constructor
          · rintro (⟨z, bs, rfl⟩ | ⟨p, u, v, as, bs, rfl, rfl, h5⟩)
            · exact .inl ⟨z, bs, rfl⟩
            · exact .inr ⟨x :: p, u, v, as, bs, rfl, rfl, h5⟩
          · rintro (⟨z, bs, h⟩ | ⟨p, u, v, as, bs, h3, h4, h5⟩)
            · simp at h; exact .inl ⟨z, bs, h⟩
            · cases p with
              | nil =>
                simp at h3 h4
                rw [← h3.1, ← h4.1] at h5; omega
              | cons q p =>
                simp at h3 h4
                exact .inr ⟨p, u, v, as, bs, h3.2, h4.2, h5⟩

theorem lexCmp_swap (a b : Bytes) : lexCmp b a = (lexCmp a b).swap := by
  induction a generalizing b with
  | nil => cases b <;> rfl
  | cons x a ih =>
    cases b with
    | nil => rfl
    | cons y b =>
      simp only [lexCmp]
      by_cases h1 : x.toNat < y.toNat
      · rw [if_neg (by omega), if_pos h1, if_pos h1]; rfl
      · by_cases h2 : y.toNat < x.toNat
        · rw [if_pos h2, if_neg h1, if_pos h2]; rfl
        · rw [if_neg h2, if_neg h1, if_neg h1, if_neg h2, ih]

/-- The result of a comparison of byte strings: `.lt` if `a` is a proper prefix of `b`, or `a` has a smaller
byte at the first difference. -/
def Precedes (a b : Bytes) : Prop :=
  (∃ x bs, b = a ++ x :: bs) ∨
    ∃ p x y as bs, a = p ++ x :: as ∧ b = p ++ y :: bs ∧ x.toNat < y.toNat

/-- `o` is the result of comparing `a` and `b`. -/
def ComparesAs (a b : Bytes) : Ordering → Prop
  | .lt => Precedes a b
  | .eq => a = b
  | .gt => Precedes b a

theorem comparesAs (a b : Bytes) : ComparesAs a b (lexCmp a b) := by
  cases h : lexCmp a b with
  | lt => exact (lexCmp_lt_iff a b).1 h
  | eq => exact lexCmp_eq h
  | gt => exact (lexCmp_lt_iff b a).1 (by rw [lexCmp_swap, h]; rfl)

/-- The three cases exclude each other, so `ComparesAs` determines the result. -/
theorem comparesAs_unique {a b : Bytes} {o : Ordering} (h : ComparesAs a b o) : o = lexCmp a b := by
  cases o with
  | lt => exact ((lexCmp_lt_iff a b).2 h).symm
  | eq => simp only [ComparesAs] at h; subst h; exact (lexCmp_self a).symm
  | gt => rw [lexCmp_swap b a, (lexCmp_lt_iff b a).2 h]; rfl

/-! ### Theorems -/

/-- C36: comparing two chains compares their bytes as unsigned numbers, lexicographically. -/
theorem C36_compare (he : env.Ok) (r : Reach env w) (hs : Shows w s) {i j : Nat} {a b : Ch}
    (ha : w.chains[i]? = some a) (hb : w.chains[j]? = some b) :
    ∃ o, compareChains w.heap a b = some o ∧ ComparesAs (s.at i) (s.at j) o := by
  obtain ⟨_, ra⟩ := chain_rep he r hs ha
  obtain ⟨_, rb⟩ := chain_rep he r hs hb
  exact ⟨_, compareChains_spec ra rb, comparesAs _ _⟩

/-- C36: the same for comparing with a string. -/
theorem C36_compare_string (he : env.Ok) (r : Reach env w) (hs : Shows w s) {i : Nat} {a : Ch}
    (ha : w.chains[i]? = some a) (b : Bytes) :
    ∃ o, compareStr w.heap a b = some o ∧ ComparesAs (s.at i) b o := by
  obtain ⟨_, ra⟩ := chain_rep he r hs ha
  exact ⟨_, compareStr_spec ra b, comparesAs _ _⟩

/-- C36: `==` says whether the bytes are the same. -/
theorem C36_equal (he : env.Ok) (r : Reach env w) (hs : Shows w s) {i j : Nat} {a b : Ch}
    (ha : w.chains[i]? = some a) (hb : w.chains[j]? = some b) :
    equalChains w.heap a b = some (decide (s.at i = s.at j)) := by
  obtain ⟨_, ra⟩ := chain_rep he r hs ha
  obtain ⟨_, rb⟩ := chain_rep he r hs hb
  exact equalChains_spec ra rb

theorem C36_equal_string (he : env.Ok) (r : Reach env w) (hs : Shows w s) {i : Nat} {a : Ch}
    (ha : w.chains[i]? = some a) (b : Bytes) :
    equalStr w.heap a b = some (decide (s.at i = b)) := by
  obtain ⟨_, ra⟩ := chain_rep he r hs ha
  exact equalStr_spec ra b

/-- C36: equal chains, even of different programs, have the same hash, for any hash function. -/
theorem C36_hash {env' : Env} {w' : World} {s' : Values} (he : env.Ok) (r : Reach env w) (hs : Shows w s)
    (he' : env'.Ok) (r' : Reach env' w') (hs' : Shows w' s') {i j : Nat} {a b : Ch}
    (ha : w.chains[i]? = some a) (hb : w'.chains[j]? = some b) (heq : s.at i = s'.at j)
    (h : Hasher) (st : h.State) :
    ∃ x, hashValue h w.heap a st = some x ∧ hashValue h w'.heap b st = some x := by
  obtain ⟨_, ra⟩ := chain_rep he r hs ha
  obtain ⟨_, rb⟩ := chain_rep he' r' hs' hb
  exact ⟨_, hashValue_spec h ra st, by rw [hashValue_spec h rb st, heq]⟩

/-- C36: all bytes of the chain are hashed, in order, in parts of 256 bytes, followed by the size. -/
theorem C36_hash_value (he : env.Ok) (r : Reach env w) (hs : Shows w s) {i : Nat} {a : Ch}
    (ha : w.chains[i]? = some a) (h : Hasher) (st : h.State) :
    hashValue h w.heap a st = some (h.size (hashChunks h st (s.at i)) (s.at i).length) := by
  obtain ⟨_, ra⟩ := chain_rep he r hs ha
  exact hashValue_spec h ra st

/-- C36: `Flatten()` returns the bytes of the chain. -/
theorem C36_flatten (he : env.Ok) (r : Reach env w) (hs : Shows w s) {i : Nat} {a : Ch}
    (ha : w.chains[i]? = some a) (hm : (s.at i).length ≤ maxCap) :
    ∃ H c, flatten env w.heap a = some (H, c, s.at i) := by
  obtain ⟨_, ra⟩ := chain_rep he r hs ha
  obtain ⟨H, c, h, _⟩ := flatten_spec he ra hm
  exact ⟨H, c, h⟩

/-- C36: an iterator over `blocks()` goes over pieces which together are the bytes of the chain, and
`CharIndexInChain()` of the iterator to piece `k`, or to the end, is the number of bytes before it. -/
theorem C36_char_index (he : env.Ok) (r : Reach env w) (hs : Shows w s) {i : Nat} {a : Ch}
    (ha : w.chains[i]? = some a) (hm : (s.at i).length ≤ maxSize) :
    ∃ fs, fragments w.heap a = some fs ∧ fs.flatten = s.at i ∧
      ∀ k, k ≤ fs.length → charIndexInChain w.heap a k = some (fs.take k).flatten.length := by
  obtain ⟨_, ra⟩ := chain_rep he r hs ha
  obtain ⟨fs, h1, h2⟩ := fragments_spec ra
  exact ⟨fs, h1, h2, fun k hk => charIndexInChain_spec ra hm h1 hk⟩

/-- C36: `BlockAndCharIndex(n)` finds character `n`: the piece and the index in it, or the end iterator if
`n` is the size. -/
theorem C36_block_and_char_index (he : env.Ok) (r : Reach env w) (hs : Shows w s) {i : Nat} {a : Ch}
    (ha : w.chains[i]? = some a) (hm : (s.at i).length ≤ maxSize) {n : Nat} (hn : n ≤ (s.at i).length) :
    ∃ fs k j, fragments w.heap a = some fs ∧ fs.flatten = s.at i ∧
      blockAndCharIndex w.heap a n = some (k, j) ∧
      if n = (s.at i).length then k = fs.length ∧ j = 0
      else ∃ f, fs[k]? = some f ∧ j < f.length ∧ f[j]? = (s.at i)[n]? ∧
        (fs.take k).flatten.length + j = n := by
  obtain ⟨_, ra⟩ := chain_rep he r hs ha
  obtain ⟨fs, h1, h2⟩ := fragments_spec ra
  obtain ⟨k, j, h3, h4, h5⟩ := blockAndCharIndex_spec ra hm h1 hn
  refine ⟨fs, k, j, h1, h2, h3, ?_⟩
  split at h5
  · rename_i h; rw [if_pos h]; exact h5
  · rename_i h
    rw [if_neg h]
    obtain ⟨f, h6, h7⟩ := h5
    refine ⟨f, h6, h7, ?_, h4⟩
    obtain ⟨hk, hf⟩ := List.getElem?_eq_some_iff.1 h6
    have : fs.flatten = (fs.take k).flatten ++ (f ++ (fs.drop (k + 1)).flatten) := by
      conv => lhs; rw [← List.take_append_drop k fs, List.drop_eq_getElem_cons hk, hf]
      simp
    rw [← h2, this, ← h4, List.getElem?_append_right (by omega), Nat.add_sub_cancel_left,
      List.getElem?_append_left h7]

/-- The program of `C30_example`: chain 0 is split into more blocks than the number of its bytes would
need, and shares one of them with chain 1. All theorems above apply to it. -/
theorem C36_example (a b : Bytes) (ha : a.length = 600) (hb : b.length = 3) :
    ∃ w c0 c1, Reach exactEnv w ∧ Shows w ⟨[b ++ a ++ b, (a ++ a).drop 100], []⟩ ∧
      w.chains[0]? = some c0 ∧ w.chains[1]? = some c1 ∧
      equalChains w.heap c0 c1 = some false ∧
      equalStr w.heap c0 (b ++ a ++ b) = some true ∧
      (∃ fs k j f, fragments w.heap c0 = some fs ∧ blockAndCharIndex w.heap c0 3 = some (k, j) ∧
        fs[k]? = some f ∧ f[j]? = a[0]?) := by
  obtain ⟨w, r, hs⟩ := C30_example a b ha hb
  have he := exactEnv_ok
  have hl : w.chains.length = 2 := by
    have := congrArg List.length hs.chains
    simpa using this
  obtain ⟨c0, h0⟩ : ∃ c, w.chains[0]? = some c := ⟨w.chains[0], List.getElem?_eq_getElem (by omega)⟩
  obtain ⟨c1, h1⟩ : ∃ c, w.chains[1]? = some c := ⟨w.chains[1], List.getElem?_eq_getElem (by omega)⟩
  refine ⟨w, c0, c1, r, hs, h0, h1, ?_, ?_, ?_⟩
  · rw [C36_equal he r hs h0 h1]
    simp only [Values.at, List.getD_cons_zero, List.getD_cons_succ]
    rw [decide_eq_false]
    intro h
    have := congrArg List.length h
    simp [ha, hb] at this
  · rw [C36_equal_string he r hs h0]
    simp [Values.at]
  · obtain ⟨fs, k, j, h2, _, h4, h5⟩ := C36_block_and_char_index he r hs h0
      (by simp [Values.at, ha, hb, maxSize]) (n := 3) (by simp [Values.at, ha, hb])
    rw [if_neg (by simp [Values.at, ha, hb])] at h5
    obtain ⟨f, h6, _, h8, _⟩ := h5
    refine ⟨fs, k, j, f, h2, h4, h6, ?_⟩
    rw [h8]
    simp only [Values.at, List.getD_cons_zero, List.append_assoc]
    rw [List.getElem?_append_right (by omega), hb, List.getElem?_append_left (by omega)]

end Riegeli.Props
