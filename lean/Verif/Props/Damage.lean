import Verif.Damage
import Verif.Props.Reading
/-!
# C05, C06: reading damaged files with recovery

`F` is a valid file, `F'` the same with some bytes changed. `H` (the hash) and `parse` (the chunk decoder) are
arbitrary. The vocabulary (`Outcome`, `readEvents`, ...) is in `Verif/DamageSpec.lean`.
-/
namespace Riegeli.Props
open Riegeli Riegeli.CR Riegeli.Dmg

variable {H : Bytes → UInt64} {parse : Chunk → Option (List Nat × Bytes)} {recs : Chunk → List Bytes}

/-- Block headers and padding being intact, and each chunk being intact or having damage detected by hashes
or by the decoder: there is an expected outcome. -/
theorem damaged_file_has_outcome (ds : List (Chunk × Bytes))
    (hd : ∀ d ∈ ds, (Intact d ∧ ((∃ rs, DecodesTo parse d.1 rs) ∨ parse d.1 = none)) ∨ DataDamaged H d ∨ HeaderDamaged H d) :
    ∃ ev, Outcome H parse 0 ds ev :=
  outcome_exists ds.length ds 0 (Nat.le_refl _) hd

/-- **C05 and C06, any number of damaged chunks.** Reading a damaged file with a recovery function shows exactly the
expected records and skipped regions, in order, and the reader stays usable. -/
theorem C05_C06_damaged_file {cs : List Chunk} {F F' : Bytes} (hv : ValidFile H cs F) (hf : SameFrame cs F F')
    (h63 : F.length < 2 ^ 63) {ev : List Event} (ho : Outcome H parse 0 (found F' 0 cs) ev)
    {hdr0 bh0 : Bytes} (h40 : hdr0.length = 40) (h24 : bh0.length = 24) (n : Nat) :
    ∃ s, readEvents H parse F' n (newReader hdr0 bh0) = some (takeRecords n ev, s) ∧ s.err = none := by
  have hb : BoundaryOk F'.length := by
    rw [hf.length, hv.toLaid.length]
    exact (hv.ok.laid.boundary boundaryOk_zero).1
  have hl := dlaid_found hv hf cs [] rfl
  have hinit : newReader hdr0 bh0 = ⟨⟨0, 0, hdr0, [], bh0, none, false, .no, 0⟩, 0, Dec.clear, none, .no, false, []⟩ := rfl
  have hst : DSt H parse F' (newReader hdr0 bh0) ev := by
    rw [hinit]
    exact ⟨rfl, rfl, [], 0, 0, _, ev, DecAt.clear,
      Or.inl ⟨rfl, rfl, rfl, rfl, h40, h24, Nat.zero_le _, Or.inl rfl⟩, hl, ho, rfl⟩
  exact readEvents_spec (by rw [hf.length]; exact h63) hb n _ ev hst

/-- Chunks outside the changed range are found as they were. -/
theorem found_unchanged {cs : List Chunk} {F F' : Bytes} (hv : ValidFile H cs F)
    (hdec : ∀ c ∈ cs, DecodesTo parse c (recs c)) : ∀ (mid pre post : List Chunk), cs = pre ++ mid ++ post →
    (∀ p, fileEnd 0 pre ≤ p → p < fileEnd 0 (pre ++ mid) → F'[p]? = F[p]?) →
    ∀ d ∈ found F' (fileEnd 0 pre) mid, Intact d ∧ DecodesTo parse d.1 (recs d.1)
  | [], _, _, _, _ => by simp [found]
  | c :: mid, pre, post, e, h => by
    have hend : fileEnd 0 (pre ++ [c]) = c.endAt (fileEnd 0 pre) := by rw [fileEnd_append]; rfl
    have e' : cs = pre ++ c :: (mid ++ post) := by rw [e]; simp
    have hc := hv.toLaid.chunkAt e'
    have hgt := hc.holds.gt
    have hall : pre ++ c :: mid = (pre ++ [c]) ++ mid := by simp
    have hle : fileEnd 0 (pre ++ [c]) ≤ fileEnd 0 ((pre ++ [c]) ++ mid) := by
      have hl := hv.ok.laid
      rw [e, hall, chunksLaid_append] at hl
      exact SeekP.fileEnd_le hl.1
    intro d hd
    simp only [found, List.mem_cons] at hd
    rcases hd with rfl | hd
    · refine ⟨?_, hdec c (by rw [e']; simp)⟩
      show foundPayload F' (fileEnd 0 pre) (c.endAt (fileEnd 0 pre)) c.data.length = c.header ++ c.data
      rw [← found_original hc, foundPayload_eq, foundPayload_eq]
      congr 1
      apply payload_congr
      intro p h1 h2
      exact h p h1 (by rw [hall]; omega)
    · refine found_unchanged hv hdec mid (pre ++ [c]) post (by rw [e]; simp) ?_ d (by rw [hend]; exact hd)
      intro p h1 h2
      rw [← hall] at h2
      exact h p (by omega) h2

/-- **C05.** The data bytes of one chunk `c` of a valid file, at `[cb, ce)`, are changed so that their hash does not
match: reading with recovery delivers all records of all other chunks, and one skipped region, which is exactly
the chunk, in its place. -/
theorem C05_damaged_data {pre post : List Chunk} {c : Chunk} {F F' : Bytes} (hv : ValidFile H (pre ++ c :: post) F)
    (hdec : ∀ x ∈ pre ++ c :: post, DecodesTo parse x (recs x)) (h63 : F.length < 2 ^ 63)
    {cb ce : Nat} (hcb : cb = fileEnd 0 pre) (hce : ce = c.endAt cb)
    (hlen : F'.length = F.length)
    -- only data bytes of `c` are changed
    (hsame : ∀ p, ¬ (cb ≤ p ∧ p < ce ∧ 24 ≤ p % 65536 ∧ 40 ≤ usable cb p ∧ usable cb p < 40 + c.data.length) → F'[p]? = F[p]?)
    -- and the hash detects this
    (hhash : Hdr.dataHash c.header ≠ (H ((foundPayload F' cb ce c.data.length).drop 40)).toNat)
    {hdr0 bh0 : Bytes} (h40 : hdr0.length = 40) (h24 : bh0.length = 24) (n : Nat) :
    ∃ s, readEvents H parse F' n (newReader hdr0 bh0) =
        some (takeRecords n (allRecords recs 0 pre ++ .skipped cb ce :: allRecords recs ce post), s) ∧ s.err = none := by
  subst hcb hce
  have hc := hv.toLaid.chunkAt rfl
  have hend : fileEnd 0 (pre ++ [c]) = c.endAt (fileEnd 0 pre) := by rw [fileEnd_append]; rfl
  have hgt := hc.holds.gt
  have hf : SameFrame (pre ++ c :: post) F F' := by
    refine ⟨hlen, fun p hp => hsame p (by omega), ?_⟩
    intro pre' c' post' e p h1 h2 h3
    by_cases hin : fileEnd 0 pre ≤ p ∧ p < c.endAt (fileEnd 0 pre)
    · obtain ⟨e1, e2⟩ := chunk_unique hv.ok.laid rfl e hin.1 hin.2 h1 h2
      subst e1 e2
      exact hsame p (by omega)
    · exact hsame p (by omega)
  have e0 : found F' 0 (pre ++ c :: post) = found F' 0 pre ++
      (c, foundPayload F' (fileEnd 0 pre) (c.endAt (fileEnd 0 pre)) c.data.length) :: found F' (fileEnd 0 (pre ++ [c])) post := by
    rw [found_append, hend]; rfl
  have hpre : ∀ d ∈ found F' 0 pre, Intact d ∧ DecodesTo parse d.1 (recs d.1) :=
    found_unchanged (F' := F') hv hdec pre [] (c :: post) rfl (fun p _ h2 => hsame p (by
      simp only [List.nil_append] at h2; omega))
  have hpost := found_unchanged (F' := F') hv hdec post (pre ++ [c]) [] (by simp) (fun p h1 _ => hsame p (by omega))
  have hlenf : (foundPayload F' (fileEnd 0 pre) (c.endAt (fileEnd 0 pre)) c.data.length).length = 40 + c.data.length :=
    (segAt_found hc hf.length hf.blockHeaders (hf.padding pre c post rfl)).1
  have hhead : (foundPayload F' (fileEnd 0 pre) (c.endAt (fileEnd 0 pre)) c.data.length).take 40 = c.header := by
    have h1 := found_original hc
    rw [foundPayload_eq] at h1 ⊢
    rw [List.take_take, show min 40 (40 + c.data.length) = 40 by omega,
      payload_take_congr (F := F) (by omega) (fun p _ _ _ _ => hsame p (by omega))]
    have h2 := congrArg (List.take 40) h1
    rw [List.take_take, show min 40 (40 + c.data.length) = 40 by omega] at h2
    rw [h2]; simp [hc.hlen]
  have ho : Outcome H parse 0 (found F' 0 (pre ++ c :: post))
      (allRecords recs 0 pre ++ .skipped (fileEnd 0 pre) (c.endAt (fileEnd 0 pre)) :: allRecords recs (c.endAt (fileEnd 0 pre)) post) := by
    rw [e0]
    have h1 := outcome_append (H := H) (parse := parse) recs (ds2 := []) (ev := []) (found F' (fileEnd 0 (pre ++ [c])) post)
      (fileEnd 0 (pre ++ [c])) hpost (Outcome.done _)
    rw [List.append_nil, List.append_nil, found_fst, hend] at h1
    have h2 := Outcome.data (H := H) (parse := parse) (fileEnd 0 pre) (c, _) _ _ ⟨hlenf, hhead, hhash⟩ h1
    have h3 := outcome_append (H := H) (parse := parse) recs _ 0 hpre (by rw [found_fst]; exact h2)
    rw [found_fst] at h3
    rw [hend]
    exact h3
  exact C05_C06_damaged_file hv hf h63 ho h40 h24 n

/-- **C06.** Header bytes of one chunk `c` of a valid file (and perhaps its data) are changed so that the hash of the header
does not match: reading with recovery delivers all records of the chunks before it, then one skipped region, then all
records of the remaining chunks. The skipped region begins where the damaged chunk does, and ends at the
first chunk boundary (where the next chunk begins, or the end of the file) which is at or after the first block boundary
`b` after the damaged header. The chunks `lost` besides the damaged one are those which begin before `b`. -/
theorem C06_damaged_header {pre post : List Chunk} {c : Chunk} {F F' : Bytes} (hv : ValidFile H (pre ++ c :: post) F)
    (hdec : ∀ x ∈ pre ++ c :: post, DecodesTo parse x (recs x)) (h63 : F.length < 2 ^ 63)
    {cb ce : Nat} (hcb : cb = fileEnd 0 pre) (hce : ce = c.endAt cb)
    (hlen : F'.length = F.length)
    -- only header and data bytes of `c` are changed
    (hsame : ∀ p, ¬ (cb ≤ p ∧ p < ce ∧ 24 ≤ p % 65536 ∧ usable cb p < 40 + c.data.length) → F'[p]? = F[p]?)
    -- and the hash of the header detects this
    (hhash : Hdr.storedHash ((foundPayload F' cb ce c.data.length).take 40) ≠
      (H (((foundPayload F' cb ce c.data.length).take 40).drop 8)).toNat)
    {hdr0 bh0 : Bytes} (h40 : hdr0.length = 40) (h24 : bh0.length = 24) (n : Nat) :
    ∃ b lost rest e s, NextBlock cb b ∧ post = lost ++ rest ∧ e = fileEnd ce lost ∧
      (∀ l1 x l2, lost = l1 ++ x :: l2 → fileEnd ce l1 < b) ∧ (rest ≠ [] → b ≤ e) ∧
      readEvents H parse F' n (newReader hdr0 bh0) =
        some (takeRecords n (allRecords recs 0 pre ++ .skipped cb e :: allRecords recs e rest), s) ∧ s.err = none := by
  subst hcb hce
  have hc := hv.toLaid.chunkAt rfl
  have hend : fileEnd 0 (pre ++ [c]) = c.endAt (fileEnd 0 pre) := by rw [fileEnd_append]; rfl
  have hgt := hc.holds.gt
  have hf : SameFrame (pre ++ c :: post) F F' := by
    refine ⟨hlen, fun p hp => hsame p (by omega), ?_⟩
    intro pre' c' post' e p h1 h2 h3
    by_cases hin : fileEnd 0 pre ≤ p ∧ p < c.endAt (fileEnd 0 pre)
    · obtain ⟨e1, e2⟩ := chunk_unique hv.ok.laid rfl e hin.1 hin.2 h1 h2
      subst e1 e2
      exact hsame p (by omega)
    · exact hsame p (by omega)
  obtain ⟨b, hb⟩ := nextBlock_exists (fileEnd 0 pre)
  let d : Chunk × Bytes := (c, foundPayload F' (fileEnd 0 pre) (c.endAt (fileEnd 0 pre)) c.data.length)
  obtain ⟨lost, rest, q1, q2, q3⟩ := split_exists (fileEnd 0 pre) b d (found F' (c.endAt (fileEnd 0 pre)) post)
  have hq := congrArg (List.map Prod.fst) q1
  rw [found_fst, List.map_append] at hq
  have hpre : ∀ d ∈ found F' 0 pre, Intact d ∧ DecodesTo parse d.1 (recs d.1) :=
    found_unchanged (F' := F') hv hdec pre [] (c :: post) rfl (fun p _ h2 => hsame p (by
      simp only [List.nil_append] at h2; omega))
  have hpost := found_unchanged (F' := F') hv hdec post (pre ++ [c]) [] (by simp) (fun p h1 _ => hsame p (by omega))
  rw [hend, q1] at hpost
  have hlenf : (foundPayload F' (fileEnd 0 pre) (c.endAt (fileEnd 0 pre)) c.data.length).length = 40 + c.data.length :=
    (segAt_found hc hf.length hf.blockHeaders (hf.padding pre c post rfl)).1
  have h1 := outcome_append (H := H) (parse := parse) recs (ds2 := []) (ev := []) rest
    (fileEnd (fileEnd 0 pre) ((d :: lost).map Prod.fst)) (fun x hx => hpost x (by simp [hx])) (Outcome.done _)
  rw [List.append_nil, List.append_nil] at h1
  have h2 := Outcome.header (H := H) (parse := parse) (fileEnd 0 pre) b d lost rest _ ⟨hlenf, hhash⟩ hb q2 q3 h1
  have h3 := outcome_append (H := H) (parse := parse) recs _ 0 hpre (by rw [found_fst]; exact h2)
  rw [found_fst] at h3
  have e0 : found F' 0 (pre ++ c :: post) = found F' 0 pre ++ (d :: lost ++ rest) := by
    rw [found_append]
    show _ = found F' 0 pre ++ d :: (lost ++ rest)
    rw [← q1]; rfl
  rw [← e0] at h3
  obtain ⟨s, g1, g2⟩ := C05_C06_damaged_file hv hf h63 h3 h40 h24 n
  refine ⟨b, lost.map Prod.fst, rest.map Prod.fst, _, s, hb, hq, rfl, ?_, ?_, g1, g2⟩
  · intro l1 x l2 hl
    obtain ⟨a, a', e1, e2, e3⟩ := List.map_eq_append_iff.1 hl
    obtain ⟨y, ys, e4, e5, e6⟩ := List.map_eq_cons_iff.1 e3
    rw [← e2]
    exact q2 a y ys (by rw [e1, e4])
  · intro hne
    exact q3 (fun h => hne (by rw [h]; rfl))

/-! ## The hypotheses are met -/
section
open Riegeli.Example

/-- A hash function: the first byte. -/
def firstByte (b : Bytes) : UInt64 := (b.headD 0).toUInt64

theorem example_set (i : Nat) (x : UInt8) (h1 : 100128 ≤ i) (h2 : i < 100170) :
    foundPayload ((file firstByte).set i x) 100128 100170 2 = ((small firstByte).header ++ [1, 2]).set (i - 100128) x := by
  have hc := (valid firstByte).toLaid.chunkAt (pre := [sig firstByte, big firstByte]) (c := small firstByte) (post := []) rfl
  have he : fileEnd 0 [sig firstByte, big firstByte] = 100128 := by simp only [fileEnd, sig_end, big_end]
  rw [he] at hc
  have hs := hc.seg 100128 42 (Nat.le_refl _) (by rw [small_end]; omega)
  rw [small_end, chunkSeg_payload (Nat.le_refl _) (by omega) (by omega) (by rw [List.length_append, hc.hlen]; simp [usable, small, mkChunk])] at hs
  have hl := length firstByte
  rw [foundPayload_eq, show (100170 : Nat) = 100128 + 42 from rfl,
    payload_run (by omega) (by omega) (by rw [List.length_set, hl]; omega), List.take_of_length_le (by rw [slice_length]; omega)]
  have e1 : slice ((file firstByte).set i x) 100128 42 = (slice (file firstByte) 100128 42).set (i - 100128) x := by
    unfold slice
    rw [List.drop_set, if_neg (by omega), List.take_set]
  rw [e1, hs]
  have hu : usable 100128 100128 = 0 := by simp [usable]
  rw [hu]
  congr 1

/-- Changing the first data byte of the small chunk meets the hypotheses of `C05_damaged_data`. -/
example : ∃ (pre post : List Chunk) (c : Chunk) (F F' : Bytes) (cb ce : Nat),
    ValidFile firstByte (pre ++ c :: post) F ∧ (∀ x ∈ pre ++ c :: post, DecodesTo Example.parse x (Example.recs x)) ∧
    F.length < 2 ^ 63 ∧ cb = fileEnd 0 pre ∧ ce = c.endAt cb ∧ F'.length = F.length ∧
    (∀ p, ¬ (cb ≤ p ∧ p < ce ∧ 24 ≤ p % 65536 ∧ 40 ≤ usable cb p ∧ usable cb p < 40 + c.data.length) → F'[p]? = F[p]?) ∧
    Hdr.dataHash c.header ≠ (firstByte ((foundPayload F' cb ce c.data.length).drop 40)).toNat := by
  have he : fileEnd 0 [sig firstByte, big firstByte] = 100128 := by simp only [fileEnd, sig_end, big_end]
  refine ⟨[sig firstByte, big firstByte], [], small firstByte, file firstByte, (file firstByte).set 100168 9, 100128, 100170,
    valid _, decodes _, by rw [length]; decide, he.symm, (small_end _).symm, List.length_set, ?_, ?_⟩
  · intro p hp
    rw [List.getElem?_set_ne]
    intro h
    subst h
    apply hp
    have : usable 100128 100168 = 40 := by rw [usable_eq (by omega)]; rfl
    rw [this]
    exact ⟨by omega, by omega, by omega, by omega, by show 40 < 40 + 2; omega⟩
  · have hh : Hdr.dataHash (small firstByte).header = 1 := by decide
    have hl : (small firstByte).header.length = 40 := by decide
    show _ ≠ (firstByte ((foundPayload _ 100128 100170 2).drop 40)).toNat
    rw [hh, example_set 100168 9 (by omega) (by omega), List.set_append, if_neg (by omega)]
    rw [List.drop_append, List.drop_of_length_le (by omega), hl]
    decide

/-- Changing the first byte of the header of the small chunk meets the hypotheses of `C06_damaged_header`. -/
example : ∃ (pre post : List Chunk) (c : Chunk) (F F' : Bytes) (cb ce : Nat),
    ValidFile firstByte (pre ++ c :: post) F ∧ (∀ x ∈ pre ++ c :: post, DecodesTo Example.parse x (Example.recs x)) ∧
    F.length < 2 ^ 63 ∧ cb = fileEnd 0 pre ∧ ce = c.endAt cb ∧ F'.length = F.length ∧
    (∀ p, ¬ (cb ≤ p ∧ p < ce ∧ 24 ≤ p % 65536 ∧ usable cb p < 40 + c.data.length) → F'[p]? = F[p]?) ∧
    Hdr.storedHash ((foundPayload F' cb ce c.data.length).take 40) ≠
      (firstByte (((foundPayload F' cb ce c.data.length).take 40).drop 8)).toNat := by
  have he : fileEnd 0 [sig firstByte, big firstByte] = 100128 := by simp only [fileEnd, sig_end, big_end]
  refine ⟨[sig firstByte, big firstByte], [], small firstByte, file firstByte, (file firstByte).set 100128 9, 100128, 100170,
    valid _, decodes _, by rw [length]; decide, he.symm, (small_end _).symm, List.length_set, ?_, ?_⟩
  · intro p hp
    rw [List.getElem?_set_ne]
    intro h
    subst h
    apply hp
    have : usable 100128 100128 = 0 := by simp [usable]
    rw [this]
    exact ⟨by omega, by omega, by omega, by omega⟩
  · show Hdr.storedHash ((foundPayload _ 100128 100170 2).take 40) ≠ (firstByte (((foundPayload _ 100128 100170 2).take 40).drop 8)).toNat
    rw [example_set 100128 9 (by omega) (by omega)]
    decide

end
end Riegeli.Props
