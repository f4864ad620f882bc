import Verif.ChunkSetOps
/-!
# Chunked sets: decoding and building
-/
namespace Riegeli.StrSet.CSet
open Riegeli.StrSet

/-! ## Decoding -/

/-- Consecutive encoded chunks: the representation of each and its elements. -/
inductive EncodedChunks : Bytes → List (Bytes × List (Nat × Bytes)) → Prop
  | nil : EncodedChunks [] []
  | cons {v enc tl : Bytes} {es : List (Nat × Bytes)} {cs : List (Bytes × List (Nat × Bytes))} :
      Varint64 v enc.length → Represents [] enc es → es ≠ [] → EncodedChunks tl cs →
      EncodedChunks (v ++ (enc ++ tl)) ((enc, es) :: cs)

/-- The chunks with cumulative ends, with `n` elements before. -/
def cumul : Nat → List (Bytes × List (Nat × Bytes)) → CSet
  | _, [] => []
  | n, (enc, es) :: cs => ⟨enc, n + es.length⟩ :: cumul (n + es.length) cs

theorem EncodedChunks.rep {tl : Bytes} {cs : List (Bytes × List (Nat × Bytes))} (h : EncodedChunks tl cs) (n : Nat) :
    CRep n (cumul n cs) (cs.map (·.2)) := by
  induction h generalizing n with
  | nil => exact .nil n
  | cons h1 h2 h3 h4 ih => exact .cons h2 h3 (ih _)

theorem after_append {es fs : List Bytes} {l : Option Bytes} : After l (es ++ fs) ↔ After l es ∧ After (lastElem l es) fs := by
  induction es generalizing l with
  | nil => simp [After, lastElem]
  | cons e es ih =>
    rw [lastElem_cons]
    cases l with
    | none => simp only [List.cons_append, After]; exact ih
    | some l => simp only [List.cons_append, After, ih, and_assoc]

/-- What `decodeChunks` accepts. -/
def Accepts (o : DecodeOptions) (l : Option Bytes) (n : Nat) (src rest : Bytes) (cs : List (Bytes × List (Nat × Bytes))) : Prop :=
  ∃ body, src = body ++ rest ∧ EncodedChunks body cs ∧ cs.length = n ∧ (∀ c ∈ cs, c.1.length ≤ o.maxEncodedChunkSize) ∧
    (o.validate = true → After l ((cs.map (·.2)).flatten.map (·.2)))

theorem varint_unique {v v' r r' : Bytes} {x x' : Nat} (h : Varint64 v x) (h' : Varint64 v' x') (he : v ++ r = v' ++ r') :
    v = v' ∧ r = r' ∧ x = x' := by
  have h1 := h.read r
  rw [he, h'.read r'] at h1
  simp only [Option.some.injEq, Prod.mk.injEq] at h1
  obtain ⟨e1, e2⟩ := h1
  subst e2
  exact ⟨List.append_cancel_right he, rfl, e1.symm⟩

theorem represents_unique {prev enc : Bytes} {es : List (Nat × Bytes)} (h : Represents prev enc es) :
    ∀ {fs : List (Nat × Bytes)}, Represents prev enc fs → es = fs := by
  induction h with
  | nil prev =>
    intro fs h'
    exact (h'.nil_iff.1 rfl).symm
  | @unshared prev v u rest es hv hr ih =>
    intro fs h'
    generalize he : v ++ (u ++ rest) = enc at h'
    cases h' with
    | nil => have h0 := hv.pos; rw [(List.append_eq_nil_iff.1 he).1] at h0; simp at h0
    | @unshared _ v' u' rest' es' hv' hr' =>
      obtain ⟨e1, e2, e3⟩ := varint_unique hv hv' he
      obtain ⟨rfl, rfl⟩ := List.append_inj e2 (by omega)
      rw [ih hr']
    | shared hv' hw' hs' hr' =>
      obtain ⟨e1, e2, e3⟩ := varint_unique hv hv' he
      omega
  | @shared prev v w u rest s es hv hw hs hr ih =>
    intro fs h'
    generalize he : v ++ (w ++ (u ++ rest)) = enc at h'
    cases h' with
    | nil => have h0 := hv.pos; rw [(List.append_eq_nil_iff.1 he).1] at h0; simp at h0
    | unshared hv' hr' =>
      obtain ⟨e1, e2, e3⟩ := varint_unique hv hv' he
      omega
    | @shared _ v' w' u' rest' s' es' hv' hw' hs' hr' =>
      obtain ⟨e1, e2, e3⟩ := varint_unique hv hv' he
      obtain ⟨f1, f2, f3⟩ := varint_unique hw hw' e2
      obtain ⟨rfl, rfl⟩ := List.append_inj f2 (by omega)
      subst f3
      rw [ih hr']

theorem decodeChunks_cases (o : DecodeOptions) : ∀ (n : Nat) (src : Bytes) (st : DecodeState),
    (∃ err, decodeChunks o n src st = some (.error err) ∧ ¬∃ rest cs, Accepts o st.last n src rest cs) ∨
    (∃ rest cs, Accepts o st.last n src rest cs ∧ decodeChunks o n src st = some (.ok (cumul st.cumulativeSize cs, rest))) := by
  intro n
  induction n with
  | zero =>
    intro src st
    right
    refine ⟨src, [], ⟨[], rfl, .nil, rfl, by simp, ?_⟩, rfl⟩
    intro _
    simp [After]
  | succ n ih =>
    intro src st
    rw [decodeChunks]
    rcases decode_cases src ⟨o.validate, o.maxEncodedChunkSize, some st⟩ with ⟨err, h1, h2⟩ | ⟨v, enc, rest, es, h1, h2, h3, h4, h5, h6⟩
    · left
      rw [h1]
      refine ⟨err, rfl, ?_⟩
      rintro ⟨rest, cs, body, a1, a2, a3, a4, a5⟩
      apply h2
      cases a2 with
      | nil => simp at a3
      | @cons v enc tl es cs b1 b2 b3 b4 =>
        refine ⟨v, enc, tl ++ rest, es, by rw [a1]; simp, b1, a4 (enc, es) (by simp), b2, ?_⟩
        intro hv
        have := a5 hv
        simp only [List.map_cons, List.flatten_cons, List.map_append] at this
        exact (after_append.1 this).1
    · rw [h6]
      simp only [Option.map_some]
      have hst : (stateAfter o.validate (es.map (·.2)) st).cumulativeSize = st.cumulativeSize + es.length := by simp [stateAfter]
      have hun : ∀ {rest' cs'}, Accepts o st.last (n + 1) src rest' cs' → es ≠ [] ∧ ∃ cs'', cs' = (enc, es) :: cs'' ∧
          Accepts o (stateAfter o.validate (es.map (·.2)) st).last n rest rest' cs'' := by
        rintro rest' cs' ⟨body, a1, a2, a3, a4, a5⟩
        cases a2 with
        | nil => simp at a3
        | @cons v' enc' tl es' cs b1 b2 b3 b4 =>
          have e0 : v ++ (enc ++ rest) = v' ++ (enc' ++ (tl ++ rest')) := by rw [← h1, a1]; simp
          obtain ⟨e1, e2, e3⟩ := varint_unique h2 b1 e0
          obtain ⟨rfl, e4⟩ := List.append_inj e2 e3
          have := represents_unique h4 b2
          subst this
          refine ⟨b3, cs, rfl, tl, e4, b4, by simpa using a3, fun c hc => a4 c (by simp [hc]), ?_⟩
          intro hv
          have := a5 hv
          simp only [List.map_cons, List.flatten_cons, List.map_append] at this
          simpa [stateAfter, hv] using (after_append.1 this).2
      by_cases henc : enc = []
      · left
        rw [if_pos henc]
        refine ⟨_, rfl, ?_⟩
        rintro ⟨rest', cs', ha⟩
        exact (hun ha).1 (h4.nil_iff.1 henc)
      · rw [if_neg henc]
        have hes : es ≠ [] := fun h => henc (h4.nil_iff.2 h)
        rcases ih rest (stateAfter o.validate (es.map (·.2)) st) with ⟨err, g1, g2⟩ | ⟨rest', cs, g1, g2⟩
        · left
          rw [g1]
          refine ⟨err, rfl, ?_⟩
          rintro ⟨rest', cs', ha⟩
          obtain ⟨_, cs'', _, hb⟩ := hun ha
          exact g2 ⟨rest', cs'', hb⟩
        · right
          rw [g2]
          obtain ⟨body, a1, a2, a3, a4, a5⟩ := g1
          refine ⟨rest', (enc, es) :: cs, ⟨v ++ (enc ++ body), by rw [h1, a1]; simp, .cons h2 h4 hes a2, by simp [a3], ?_, ?_⟩, ?_⟩
          · intro c hc
            rcases List.mem_cons.1 hc with rfl | hc
            · exact h3
            · exact a4 c hc
          · intro hv
            simp only [List.map_cons, List.flatten_cons, List.map_append]
            rw [after_append]
            refine ⟨h5 hv, ?_⟩
            simpa [stateAfter, hv] using a5 hv
          · simp only [cumul, hst]

/-- `Decode` accepts exactly the well-formed encodings within the limits (sorted, if it validates). -/
theorem decode_cases (src : Bytes) (o : DecodeOptions) :
    (∃ err, decode src o = some (.error err) ∧
      ¬∃ v body rest cs, src = v ++ (body ++ rest) ∧ Varint64 v cs.length ∧ cs.length ≤ o.maxNumChunks ∧ EncodedChunks body cs ∧
        (∀ c ∈ cs, c.1.length ≤ o.maxEncodedChunkSize) ∧ (o.validate = true → Sorted ((cs.map (·.2)).flatten.map (·.2)))) ∨
    (∃ v body rest cs, src = v ++ (body ++ rest) ∧ Varint64 v cs.length ∧ cs.length ≤ o.maxNumChunks ∧ EncodedChunks body cs ∧
      (∀ c ∈ cs, c.1.length ≤ o.maxEncodedChunkSize) ∧ (o.validate = true → Sorted ((cs.map (·.2)).flatten.map (·.2))) ∧
      decode src o = some (.ok (cumul 0 cs, rest))) := by
  unfold decode
  cases hr : readVarint 64 false src with
  | none =>
    left
    refine ⟨_, rfl, ?_⟩
    rintro ⟨v, body, rest, cs, h1, h2, _⟩
    rw [h1, h2.read] at hr
    cases hr
  | some r =>
    obtain ⟨n, src'⟩ := r
    obtain ⟨v, e1, e2⟩ := Varint64.of_read hr
    have hun : ∀ {v' body rest : Bytes} {cs : List (Bytes × List (Nat × Bytes))}, src = v' ++ (body ++ rest) → Varint64 v' cs.length →
        src' = body ++ rest ∧ n = cs.length := by
      intro v' body rest cs h1 h2
      obtain ⟨_, q1, q2⟩ := varint_unique e2 h2 (e1.symm.trans h1)
      exact ⟨q1, q2⟩
    simp only
    by_cases hm : o.maxNumChunks < n
    · rw [if_pos hm]
      left
      refine ⟨_, rfl, ?_⟩
      rintro ⟨v, body, rest, cs, h1, h2, h3, _⟩
      have := (hun h1 h2).2
      omega
    · rw [if_neg hm]
      rcases decodeChunks_cases o n src' ⟨0, none⟩ with ⟨err, g1, g2⟩ | ⟨rest, cs, ⟨body, a1, a2, a3, a4, a5⟩, g2⟩
      · left
        refine ⟨err, g1, ?_⟩
        rintro ⟨v, body, rest, cs, h1, h2, h3, h4, h5, h6⟩
        obtain ⟨q1, q2⟩ := hun h1 h2
        exact g2 ⟨rest, cs, body, q1, h4, q2.symm, h5, fun hv => after_none.2 (h6 hv)⟩
      · right
        exact ⟨v, body, rest, cs, by rw [e1, a1], by rw [a3]; exact e2, by omega, a2, a4, fun hv => after_none.1 (a5 hv), g2⟩

/-! ## Encoding -/

theorem cumul_of_rep {n : Nat} {s : CSet} {ess : List (List (Nat × Bytes))} (h : CRep n s ess) :
    s = cumul n (s.map (·.set) |>.zip ess) := by
  induction h with
  | nil n => rfl
  | cons h1 hne h2 ih => simp only [List.map_cons, List.zip_cons_cons, cumul]; rw [← ih]

theorem encoded_of_rep {n : Nat} {s : CSet} {ess : List (List (Nat × Bytes))} (h : CRep n s ess)
    (hb : ∀ c ∈ s, c.set.length < 2 ^ 64) :
    EncodedChunks (s.flatMap fun c => StrSet.encode c.set) (s.map (·.set) |>.zip ess) := by
  induction h with
  | nil n => exact .nil
  | @cons n set es cs ess h1 hne h2 ih =>
    have hl := hb ⟨set, n + es.length⟩ (by simp)
    simp only [List.flatMap_cons, StrSet.encode, List.map_cons, List.zip_cons_cons]
    have hw : w64 set.length = set.length := Nat.mod_eq_of_lt hl
    rw [List.append_assoc, hw]
    exact .cons (Varint64.write hl) h1 hne (ih fun c hc => hb c (by simp [hc]))

theorem zip_snd {s : CSet} {ess : List (List (Nat × Bytes))} (h : s.length = ess.length) :
    ((s.map (·.set) |>.zip ess).map (·.2)) = ess := by
  rw [List.map_snd_zip]; simp [h]

/-- Encoding and decoding a set. -/
theorem decode_encode {s : CSet} {ess : List (List (Nat × Bytes))} (h : CRep 0 s ess) (hn : s.length < 2 ^ 64)
    (hb : ∀ c ∈ s, c.set.length < 2 ^ 64) (o : DecodeOptions) (hv : o.validate = true → Sorted (ess.flatten.map (·.2)))
    (h1 : s.length ≤ o.maxNumChunks) (h2 : ∀ c ∈ s, c.set.length ≤ o.maxEncodedChunkSize) (rest : Bytes) :
    decode (encode s ++ rest) o = some (.ok (s, rest)) := by
  have hw : w64 s.length = s.length := Nat.mod_eq_of_lt hn
  have hlen : (s.map (·.set) |>.zip ess).length = s.length := by
    rw [List.length_zip, List.length_map, ← h.length_eq, Nat.min_self]
  have henc : encode s ++ rest = writeVarint s.length ++ ((s.flatMap fun c => StrSet.encode c.set) ++ rest) := by
    unfold encode
    rw [hw, List.append_assoc]
  have hec := encoded_of_rep h hb
  rcases decode_cases (encode s ++ rest) o with ⟨err, g1, g2⟩ | ⟨v, body, rest', cs, a1, a2, a3, a4, a5, a6, a7⟩
  · refine absurd ⟨writeVarint s.length, _, rest, _, henc, ?_, ?_, hec, ?_, ?_⟩ g2
    · rw [hlen]; exact Varint64.write hn
    · rw [hlen]; exact h1
    · intro c hc
      have := (List.of_mem_zip (a := c.1) (b := c.2) hc).1
      obtain ⟨c', q1, q2⟩ := List.mem_map.1 this
      rw [← q2]; exact h2 c' q1
    · rw [zip_snd h.length_eq]; exact hv
  · obtain ⟨_, q1, q2⟩ := varint_unique (Varint64.write hn) a2 (henc.symm.trans a1)
    have key : ∀ {b1 b2 r1 r2 : Bytes} {c1 c2 : List (Bytes × List (Nat × Bytes))}, EncodedChunks b1 c1 → EncodedChunks b2 c2 →
        c1.length = c2.length → b1 ++ r1 = b2 ++ r2 → c1 = c2 ∧ r1 = r2 := by
      intro b1 b2 r1 r2 c1 c2 k1
      induction k1 generalizing b2 c2 with
      | nil =>
        intro k2 hl he
        cases k2 with
        | nil => exact ⟨rfl, he⟩
        | cons => simp at hl
      | @cons v enc tl es cs i1 i2 i3 i4 ih =>
        intro k2 hl he
        cases k2 with
        | nil => simp at hl
        | @cons v' enc' tl' es' cs' j1 j2 j3 j4 =>
          simp only [List.append_assoc] at he
          obtain ⟨_, w1, w2⟩ := varint_unique i1 j1 he
          obtain ⟨rfl, w3⟩ := List.append_inj w1 w2
          have := represents_unique i2 j2
          subst this
          obtain ⟨rfl, rfl⟩ := ih j4 (by simpa using hl) w3
          exact ⟨rfl, rfl⟩
    obtain ⟨e1, e2⟩ := key hec a4 (by omega) q1
    rw [a7, ← e1, ← e2, ← cumul_of_rep h]

theorem encode_length {s : CSet} (hn : s.length < 2 ^ 64) (hb : ∀ c ∈ s, c.set.length < 2 ^ 64) :
    (encode s).length = encodedSize s := by
  unfold encode encodedSize
  rw [List.length_append, show w64 s.length = s.length from Nat.mod_eq_of_lt hn, lengthVarint_eq hn, List.length_flatMap]
  congr 2
  apply List.map_congr_left
  intro c hc
  unfold StrSet.encode StrSet.encodedSize
  rw [List.length_append, show w64 c.set.length = c.set.length from Nat.mod_eq_of_lt (hb c hc), lengthVarint_eq (hb c hc)]

/-! ## Building -/

/-- The state of the builder: the elements of completed chunks, and of the current chunk. -/
structure CBInv (b : CBuilder) (ess : List (List (Nat × Bytes))) (cur : List (Nat × Bytes)) : Prop where
  chunks : CRep 0 b.chunks ess
  current : BInv b.current cur
  full : ∀ es ∈ ess, es.length = b.chunkSize
  canon : ∀ es ∈ ess, Canon [] es
  le : cur.length ≤ b.chunkSize
  start : cur = [] → ess = []

theorem CBInv.new (n : Nat) : CBInv (.new n) [] [] where
  chunks := .nil 0
  current := BInv.new
  full := by simp
  canon := by simp
  le := by simp
  start := fun _ => rfl

theorem lastOf_append {es fs : List (Nat × Bytes)} (h : fs ≠ []) : lastOf (es ++ fs) = lastOf fs := by
  unfold lastOf
  rw [List.getLast?_append, List.getLast?_eq_some_getLast h]
  rfl

theorem CBInv.last {b : CBuilder} {ess : List (List (Nat × Bytes))} {cur : List (Nat × Bytes)} (h : CBInv b ess cur) :
    b.last = lastOf (ess.flatten ++ cur) := by
  unfold CBuilder.last
  rw [h.current.2.1, h.current.2.2.1]
  by_cases hc : cur = []
  · rw [h.start hc, hc]; rfl
  · rw [if_neg (by simpa using hc), lastOf_append hc]
    unfold lastOf
    rw [List.getLast?_eq_some_getLast hc]
    rfl

theorem CBInv.size {b : CBuilder} {ess : List (List (Nat × Bytes))} {cur : List (Nat × Bytes)} (h : CBInv b ess cur) :
    b.size = (ess.flatten ++ cur).length := by
  unfold CBuilder.size
  rw [size_eq h.chunks, h.current.2.1, List.length_append]

theorem CBInv.addChunk {b : CBuilder} {ess : List (List (Nat × Bytes))} {cur : List (Nat × Bytes)} (h : CBInv b ess cur)
    (hne : cur ≠ []) : CRep 0 b.addChunk.chunks (ess ++ [cur]) ∧ b.addChunk.current = .new ∧ b.addChunk.chunkSize = b.chunkSize := by
  refine ⟨?_, rfl, rfl⟩
  show CRep 0 (b.chunks ++ [⟨b.current.build.1, CSet.size b.chunks + b.current.size⟩]) (ess ++ [cur])
  refine h.chunks.append ?_
  rw [size_eq h.chunks, h.current.2.1, Nat.zero_add]
  exact .cons h.current.1 hne (.nil _)

theorem CBInv.insert {b : CBuilder} {ess : List (List (Nat × Bytes))} {cur : List (Nat × Bytes)} (h : CBInv b ess cur)
    (hpos : 0 < b.chunkSize) (e : Bytes) (he : e.length < 2 ^ 63) :
    (match lastOf (ess.flatten ++ cur) with
    | some l => ¬l < e ∧ b.tryInsertNext e = some (if e = l then .no else .unsorted, b)
    | none => False) ∨
    ((∀ l, lastOf (ess.flatten ++ cur) = some l → l < e) ∧
      ∃ b' ess' cur' s, b.tryInsertNext e = some (.yes, b') ∧ CBInv b' ess' cur' ∧ b'.chunkSize = b.chunkSize ∧
        ess'.flatten ++ cur' = ess.flatten ++ cur ++ [(s, e)]) := by
  have hlt : ∀ l, (cmp e l ≠ .gt) ↔ ¬l < e := by
    intro l; rw [← cmp_gt_iff]
  by_cases hfull : b.current.size = b.chunkSize
  · have hcl : cur.length = b.chunkSize := by rw [← hfull, h.current.2.1]
    have hc : cur ≠ [] := by intro hc; rw [hc] at hcl; simp at hcl; omega
    obtain ⟨l, hl⟩ : ∃ l, lastOf cur = some l := by
      unfold lastOf
      rw [List.getLast?_eq_some_getLast hc]
      exact ⟨_, rfl⟩
    have hbl : b.current.last = l := by rw [h.current.2.2.1, hl]; rfl
    rw [lastOf_append hc, hl]
    have e1 : b.tryInsertNext e = (if cmp e l ≠ .gt then
        (if e = l then some (.no, b) else some (.unsorted, b))
      else
        some ((b.addChunk.current.tryInsertNext e).1, { b.addChunk with current := (b.addChunk.current.tryInsertNext e).2 })) := by
      rw [CBuilder.tryInsertNext, if_pos hfull, if_neg (by omega), hbl]
    rw [e1]
    by_cases hle : l < e
    · right
      refine ⟨by intro l' h'; simp at h'; subst h'; exact hle, ?_⟩
      rw [if_neg (fun q => (hlt l).1 q hle)]
      obtain ⟨a1, a2, a3⟩ := h.addChunk hc
      rw [a2]
      obtain ⟨b', t1, t2⟩ := tryInsertNext_yes BInv.new (e := e) he (by intro l h; simp [lastOf] at h)
      rw [t1]
      refine ⟨_, ess ++ [cur], _, canonShared ((lastOf []).getD []) e, rfl, ⟨a1, t2, ?_, ?_, ?_, by simp⟩, a3, ?_⟩
      · intro es hes
        rw [show (CBuilder.mk b.addChunk.chunkSize b.addChunk.chunks b').chunkSize = b.chunkSize from a3]
        rcases List.mem_append.1 hes with q | q
        · exact h.full es q
        · simp at q; rw [q]; exact hcl
      · intro es hes
        rcases List.mem_append.1 hes with q | q
        · exact h.canon es q
        · simp at q; rw [q]; exact h.current.2.2.2
      · rw [show (CBuilder.mk b.addChunk.chunkSize b.addChunk.chunks b').chunkSize = b.chunkSize from a3]
        exact hpos
      · simp
    · left
      refine ⟨hle, ?_⟩
      rw [if_pos ((hlt l).2 hle)]
      split <;> rfl
  · have hcl : cur.length < b.chunkSize := by
      have := h.le; have := h.current.2.1; omega
    have e1 : b.tryInsertNext e = some ((b.current.tryInsertNext e).1, { b with current := (b.current.tryInsertNext e).2 }) := by
      rw [CBuilder.tryInsertNext, if_neg hfull]
    have hlast : lastOf (ess.flatten ++ cur) = lastOf cur := by
      by_cases hc : cur = []
      · rw [h.start hc, hc]; rfl
      · exact lastOf_append hc
    rw [hlast, e1]
    by_cases hall : ∀ l, lastOf cur = some l → l < e
    · right
      refine ⟨hall, ?_⟩
      obtain ⟨b', t1, t2⟩ := tryInsertNext_yes h.current he hall
      rw [t1]
      refine ⟨_, ess, _, canonShared ((lastOf cur).getD []) e, rfl, ⟨h.chunks, t2, h.full, h.canon, ?_, by simp⟩, rfl, by rw [List.append_assoc]⟩
      simp only [List.length_append, List.length_singleton]
      exact hcl
    · left
      obtain ⟨l, hl, hnl⟩ : ∃ l, lastOf cur = some l ∧ ¬l < e := by
        cases hl : lastOf cur with
        | none => exact absurd (by intro l h; rw [hl] at h; cases h) hall
        | some l =>
          refine ⟨l, rfl, fun hle => hall ?_⟩
          intro l' h'; rw [hl] at h'; cases h'; exact hle
      rw [hl]
      refine ⟨hnl, ?_⟩
      rw [tryInsertNext_not h.current hl hnl]

theorem insertAll_eq {src : List Bytes} : ∀ {b : CBuilder} {ess : List (List (Nat × Bytes))} {cur : List (Nat × Bytes)}, CBInv b ess cur →
    0 < b.chunkSize → (∀ e ∈ src, e.length < 2 ^ 63) →
    ∃ b' ess' cur', b.insertAll src = some ((insertSpec (lastOf (ess.flatten ++ cur)) src).1, b') ∧ CBInv b' ess' cur' ∧
      b'.chunkSize = b.chunkSize ∧
      (ess'.flatten ++ cur').map (·.2) = (ess.flatten ++ cur).map (·.2) ++ (insertSpec (lastOf (ess.flatten ++ cur)) src).2 := by
  induction src with
  | nil =>
    intro b ess cur h _ _
    refine ⟨b, ess, cur, ?_, h, rfl, ?_⟩ <;> cases lastOf (ess.flatten ++ cur) <;> simp [insertSpec, CBuilder.insertAll]
  | cons e src ih =>
    intro b ess cur h hpos hsrc
    have he := hsrc e (by simp)
    have hsrc' : ∀ x ∈ src, x.length < 2 ^ 63 := fun x hx => hsrc x (by simp [hx])
    rw [CBuilder.insertAll]
    rcases h.insert hpos e he with h1 | ⟨h1, b', ess', cur', s, t1, t2, t3, t4⟩
    · cases hl : lastOf (ess.flatten ++ cur) with
      | none => rw [hl] at h1; exact absurd h1 id
      | some l =>
        rw [hl] at h1
        obtain ⟨h1, h2⟩ := h1
        obtain ⟨b', ess', cur', g1, g2, g3, g4⟩ := ih h hpos hsrc'
        rw [hl] at g1 g4
        refine ⟨b', ess', cur', ?_, g2, g3, ?_⟩
        · rw [h2]
          simp only [Option.bind_eq_bind, Option.bind_some, g1]
          simp only [insertSpec, if_neg h1]
        · rw [g4]
          simp only [insertSpec, if_neg h1]
    · obtain ⟨b2, ess2, cur2, g1, g2, g3, g4⟩ := ih t2 (by rw [t3]; exact hpos) hsrc'
      rw [t4, lastOf_snoc] at g1 g4
      refine ⟨b2, ess2, cur2, ?_, g2, g3.trans t3, ?_⟩
      · rw [t1]
        simp only [Option.bind_eq_bind, Option.bind_some, g1]
        cases hl : lastOf (ess.flatten ++ cur) with
        | none => simp only [insertSpec]
        | some l => simp only [insertSpec, if_pos (h1 l hl)]
      · rw [g4]
        cases hl : lastOf (ess.flatten ++ cur) with
        | none => simp only [insertSpec, List.map_append, List.map_cons, List.map_nil, List.append_assoc, List.singleton_append]
        | some l =>
          simp only [insertSpec, if_pos (h1 l hl), List.map_append, List.map_cons, List.map_nil, List.append_assoc, List.singleton_append]

/-- The set built: its chunks have `chunkSize` elements, except that the last one can have fewer. -/
theorem build_spec {n : Nat} (hn : 0 < n) {src : List Bytes} (h : ∀ e ∈ src, e.length < 2 ^ 63) :
    ∃ b ess, (CBuilder.new n).insertAll src = some ((insertSpec none src).1, b) ∧ CRep 0 b.build.1 ess ∧
      (∀ es ∈ ess, Canon [] es) ∧ (∀ es ∈ ess, es.length ≤ n) ∧ (∀ es ∈ ess.dropLast, es.length = n) ∧
      ess.flatten.map (·.2) = (insertSpec none src).2 ∧ b.size = ess.flatten.length ∧ b.last = lastOf ess.flatten ∧
      b.build.2 = .new n := by
  obtain ⟨b, ess, cur, g1, g2, g3, g4⟩ := insertAll_eq (CBInv.new n) hn h
  have hnn : lastOf ([] ++ [] : List (Nat × Bytes)) = none := rfl
  simp only [List.flatten_nil, hnn] at g1 g4
  have g4' : (ess.flatten ++ cur).map (·.2) = (insertSpec none src).2 := by simpa using g4
  by_cases hc : cur = []
  · have he := g2.start hc
    subst hc he
    have hb : b.build = (b.chunks, { b with chunks := [] }) := by
      unfold CBuilder.build
      rw [if_neg (by rw [g2.current.2.1]; simp)]
    refine ⟨b, [], g1, ?_, by simp, by simp, by simp, by simpa using g4', ?_, ?_, ?_⟩
    · rw [hb]; exact g2.chunks
    · rw [g2.size]; rfl
    · rw [g2.last]; rfl
    · rw [hb]
      have hcur : b.current = .new := by
        have h1 := g2.current.1.nil_iff.2 rfl
        have h2 := g2.current.2.1
        have h3 := g2.current.2.2.1
        cases hbc : b.current with
        | mk w sz l =>
          rw [hbc] at h1 h2 h3
          simp only at h1 h2 h3
          rw [h1, h2, h3]; rfl
      show CBuilder.mk b.chunkSize [] b.current = _
      rw [hcur, g3]; rfl
  · have hb : b.build = (b.addChunk.chunks, { b.addChunk with chunks := [] }) := by
      unfold CBuilder.build
      rw [if_pos (by rw [g2.current.2.1]; simpa using hc)]
    obtain ⟨a1, a2, a3⟩ := g2.addChunk hc
    have g3' : b.chunkSize = n := g3
    refine ⟨b, ess ++ [cur], g1, ?_, ?_, ?_, ?_, by simpa using g4', ?_, ?_, ?_⟩
    · rw [hb]; exact a1
    · intro es hes
      rcases List.mem_append.1 hes with q | q
      · exact g2.canon es q
      · simp at q; rw [q]; exact g2.current.2.2.2
    · intro es hes
      rcases List.mem_append.1 hes with q | q
      · rw [g2.full es q, g3']; exact Nat.le_refl _
      · simp at q; rw [q, ← g3']; exact g2.le
    · intro es hes
      rw [List.dropLast_concat] at hes
      rw [g2.full es hes, g3']
    · rw [g2.size]; simp
    · rw [g2.last]; simp
    · rw [hb]
      show CBuilder.mk b.addChunk.chunkSize [] b.addChunk.current = _
      rw [a2, a3, g3']; rfl

end Riegeli.StrSet.CSet
