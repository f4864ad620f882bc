import Verif.TrWriter
import Verif.Props.Writing
/-!
# C24: transposed chunks

`Tr.ESt.addAll` is `TransposeEncoder::AddRecord` called for each record, `Tr.ESt.encode` is `EncodeAndClose`;
`Tr.decode C fields data n size` is `TransposeDecoder::Decode` with a field projection (`[[]]` includes all fields;
outer `none`: it does not return, `some none`: it fails, `some (some (limits, values))`: it succeeds).
`Tr.HashOrder` gives the iteration orders of the hash maps of the encoder, which are arbitrary.
-/
namespace Riegeli.Props
open Riegeli Riegeli.Tr

variable {C : Codec} {H : Bytes → UInt64} {o : WOpts} {recovery : Option (CR.Region → Bool)}

theorem addPath_some {e : Bool} : ∀ {path : List Nat} {m : List IncField} {cur : Option Nat}, 0 ∉ path →
    ∃ m', addPath e m cur path = some m'
  | [], m, cur, _ => ⟨m, rfl⟩
  | f :: path, m, cur, h => by
    rw [List.mem_cons, not_or] at h
    unfold addPath
    rw [if_neg (fun e => h.1 e.symm)]
    exact addPath_some h.2

theorem parseProjection_all : ∀ {fields : List (List Nat)} {m : List IncField}, [] ∈ fields →
    (∀ p ∈ fields, 0 ∉ p.dropLast) → parseProjection m fields = some none
  | [], _, h, _ => by cases h
  | path :: rest, m, h, hz => by
    unfold parseProjection
    by_cases hp : path = []
    · rw [if_pos hp]
    rw [if_neg hp]
    have hr : [] ∈ rest := by
      rcases List.mem_cons.1 h with h | h
      · exact absurd h.symm hp
      · exact h
    have hz' : ∀ p ∈ rest, 0 ∉ p.dropLast := fun p hp => hz p (List.mem_cons_of_mem _ hp)
    have hd := hz path (List.mem_cons_self ..)
    split
    · split
      · exact parseProjection_all hr hz'
      · obtain ⟨m', hm⟩ := addPath_some (e := true) (m := m) (cur := none) hd
        rw [hm]
        exact parseProjection_all hr hz'
    · rename_i hl
      have h0 : 0 ∉ path := by
        intro hm
        rw [← List.dropLast_concat_getLast hp] at hm
        rcases List.mem_append.1 hm with hm | hm
        · exact hd hm
        · rw [List.mem_singleton] at hm
          apply hl
          rw [List.getLastD_eq_getLast?, List.getLast?_eq_some_getLast hp]
          exact hm.symm
      obtain ⟨m', hm⟩ := addPath_some (e := false) (m := m) (cur := none) h0
      rw [hm]
      exact parseProjection_all hr hz'

/-- **C24.** For any records (serialized messages or arbitrary bytes), any bucket size, any lawful compression and
any iteration order of hash maps, if the total size is below `2^29`: the encoder succeeds and the decoder with all fields included, given what was
encoded, succeeds and returns the limits and the bytes of exactly the records added. -/
theorem C24_round_trip (hC : C.Lawful) {t : UInt8} (ht : knownCompression t = true) (bucketSize : Nat) (O : HashOrder)
    (rs : List Bytes) (hsz : rs.flatten.length + rs.length < 2 ^ 29) :
    ∃ s data, ESt.empty.addAll rs = some s ∧ s.encode C t bucketSize O = some data ∧
      s.numRecords = rs.length ∧ s.decodedDataSize = rs.flatten.length ∧
      (C.Bounded → data.length ≤ 10000 * (rs.flatten.length + rs.length + 1)) ∧
      (data.length < 2 ^ 64 → ∃ limits values, decode C [[]] data rs.length rs.flatten.length = some (some (limits, values)) ∧
        limits = limitsFrom 0 rs ∧ values = rs.flatten ∧ splitLimits 0 limits values = rs) := by
  obtain ⟨s, data, h1, h2, h3, h4, h5, h6⟩ := decode_encode hC ht bucketSize O rs hsz
  exact ⟨s, data, h1, h4, h2, h3, h5, fun h => ⟨_, _, h6 h, rfl, rfl, splitLimits_limitsFrom rs 0⟩⟩

/-- The iteration order in which keys are visited as they were added. -/
def plainOrder : HashOrder := ⟨fun _ _ l => l, fun _ _ _ => List.Perm.refl _⟩

/-- Four records: a message with a submessage, a message with a number, a string and a submessage, bytes which are not a
message, and an empty message. -/
def sampleRecords : List Bytes :=
  [[10, 5, 8, 150, 1, 16, 5], [8, 150, 1, 18, 2, 65, 66, 26, 3, 10, 1, 8], [255], []]

/-- A concrete instance: the records are encoded, with any bounded lawful compression, and decoded. -/
example (hC : C.Lawful) (hB : C.Bounded) : ∃ s data, ESt.empty.addAll sampleRecords = some s ∧
    s.encode C kZstd 20 plainOrder = some data ∧ ∃ limits, decode C [[]] data 4 20 = some (some (limits, sampleRecords.flatten)) ∧
      splitLimits 0 limits sampleRecords.flatten = sampleRecords := by
  obtain ⟨s, data, h1, h2, _, _, h3, h4⟩ := C24_round_trip hC (t := kZstd) (by decide) 20 plainOrder sampleRecords (by decide)
  have hl : data.length < 2 ^ 64 := Nat.lt_of_le_of_lt (h3 hB) (by decide)
  obtain ⟨limits, values, e1, e2, e3, e4⟩ := h4 hl
  subst e3
  exact ⟨s, data, h1, h2, limits, e1, e4⟩

/-- **C24** (with C01 and C16). Records written with the transpose option are read back, with their positions: chunk
sizes and records are below `2^29` bytes. -/
theorem C24_written_records_are_read (hC : C.Lawful) {t : UInt8} (ht : knownCompression t = true) (bucketSize : Nat)
    (O : HashOrder) (ho : o.desired < 2 ^ 29) {ops : List WOp} (hops : ∀ r ∈ WOp.records ops, r.length + 8 < 2 ^ 29)
    {w0 w1 w2 : RW ESt} {log : List (Option RecordPosition)}
    (hi : RW.init (transposeEncoder C t bucketSize O) H o [] = some w0)
    (hr : RW.run (transposeEncoder C t bucketSize O) H o ops w0 = some (log, w1))
    (hc : w1.close (transposeEncoder C t bucketSize O) H o = some w2)
    {hdr0 bh0 : Bytes} (h40 : hdr0.length = 40) (h24 : bh0.length = 24) (m : Nat) :
    ∃ ps s, ps.length = (WOp.records ops).length ∧
      readSchedule H (parseChunk C (tdecode C)) recovery
        (List.replicate ((WOp.records ops).length + (m + 1)) w2.out) (newReader hdr0 bh0) =
      some (((WOp.records ops).zip ps).map some ++ List.replicate (m + 1) none, s) ∧
      s.err = none ∧ s.skipped = [] ∧ s.closeErr = none ∧ log = expectedLastPos ps 0 ops := by
  obtain ⟨hi', hs⟩ := init_capped (B := 2 ^ 29 - 1) hi
  obtain ⟨e1, e2⟩ := run_capped (C := C) (t := t) (bucketSize := bucketSize) (O := O) (H := H) (B := 2 ^ 29 - 1) (by omega)
    (Nat.le_sub_one_of_lt ho) ops hs (fun r h => Nat.le_sub_one_of_lt (hops r h))
  obtain ⟨e3, _⟩ := finishChunk_capped (C := C) (t := t) (bucketSize := bucketSize) (O := O) (H := H) (o := o) (B := 2 ^ 29 - 1) (by omega)
    (e2 _ _ hr)
  exact C01_C16_any_encoder (recovery := recovery) (capped_correct hC ht bucketSize O H) hi' (e1.trans hr)
    (e3.trans hc) h40 h24 m

/-- **C24** (with C18). A transposed file is durable after a `Flush()`. -/
theorem C24_flush_is_durable (hC : C.Lawful) {t : UInt8} (ht : knownCompression t = true) (bucketSize : Nat)
    (O : HashOrder) (ho : o.desired < 2 ^ 29) {pre post : List WOp}
    (hops : ∀ r ∈ WOp.records (pre ++ [.flush]) ++ WOp.records post, r.length + 8 < 2 ^ 29)
    {w0 w1 w2 : RW ESt} {log1 log2 : List (Option RecordPosition)}
    (hi : RW.init (transposeEncoder C t bucketSize O) H o [] = some w0)
    (hr1 : RW.run (transposeEncoder C t bucketSize O) H o (pre ++ [.flush]) w0 = some (log1, w1))
    (hr2 : RW.run (transposeEncoder C t bucketSize O) H o post w1 = some (log2, w2))
    {n : Nat} (hn1 : w1.out.length ≤ n) (hn2 : n ≤ w2.out.length)
    {hdr0 bh0 : Bytes} (h40 : hdr0.length = 40) (h24 : bh0.length = 24) (m : Nat) :
    ∃ got results s, WOp.records pre <+: got ∧ got <+: WOp.records (pre ++ post) ∧
      readSchedule H (parseChunk C (tdecode C)) recovery
        (List.replicate (got.length + (m + 1)) (w2.out.take n)) (newReader hdr0 bh0) = some (results, s) ∧
      results.map (Option.map Prod.fst) = got.map some ++ List.replicate (m + 1) none ∧ s.err = none := by
  obtain ⟨hi', hs⟩ := init_capped (B := 2 ^ 29 - 1) hi
  obtain ⟨e1, e2⟩ := run_capped (C := C) (t := t) (bucketSize := bucketSize) (O := O) (H := H) (B := 2 ^ 29 - 1) (by omega)
    (Nat.le_sub_one_of_lt ho) (pre ++ [.flush]) hs (fun r h => Nat.le_sub_one_of_lt (hops r (List.mem_append_left _ h)))
  obtain ⟨e3, _⟩ := run_capped (C := C) (t := t) (bucketSize := bucketSize) (O := O) (H := H) (B := 2 ^ 29 - 1) (by omega)
    (Nat.le_sub_one_of_lt ho) post (e2 _ _ hr1) (fun r h => Nat.le_sub_one_of_lt (hops r (List.mem_append_right _ h)))
  exact C18_flush_is_durable (recovery := recovery) (capped_correct hC ht bucketSize O H) hi' (e1.trans hr1)
    (e3.trans hr2) hn1 hn2 h40 h24 m

/-- A concrete history which meets the hypotheses of the theorems above: messages, bytes which are not a message, a
flush. -/
def sampleSession : Option (RW ESt) :=
  (RW.init (transposeEncoder storeCodec kZstd 20 plainOrder) (fun _ => 7) ⟨100, 1, 0, none⟩ []).bind fun w0 =>
  (RW.run (transposeEncoder storeCodec kZstd 20 plainOrder) (fun _ => 7) ⟨100, 1, 0, none⟩
    [.write [10, 2, 16, 5], .write [255], .flush, .write []] w0).bind fun x =>
  x.2.close (transposeEncoder storeCodec kZstd 20 plainOrder) (fun _ => 7) ⟨100, 1, 0, none⟩

example : sampleSession.isSome = true := by decide +kernel

/-- **C24** (hostile chunks). Whatever the bytes, the projection and the counts in the chunk header, the decoder
returns: it does not loop forever in implicit transitions. -/
theorem C24_decoder_returns (C : Codec) (fields : List (List Nat)) (src : Bytes) (n size : Nat) :
    decode C fields src n size ≠ none := by
  obtain ⟨r, h⟩ := decode_total C fields src n size
  rw [h]; simp

/-- **C24** (hostile chunks). If the decoder succeeds, whatever the bytes and the projection, the limits it returns are
as many as the records, are nondecreasing, and the last one is the size of the values, which is at most the size
declared in the chunk header, and equal to it when everything is included. -/
theorem C24_decoder_output_is_well_formed {fields : List (List Nat)} {src : Bytes} {n size : Nat} {limits : List Nat}
    {values : Bytes} (h : decode C fields src n size = some (some (limits, values))) :
    limits.length = n ∧ limits.Pairwise (· ≤ ·) ∧ limits.getLastD 0 = values.length ∧ values.length ≤ size ∧
    ([] ∈ fields → (∀ p ∈ fields, 0 ∉ p.dropLast) → values.length = size) := by
  obtain ⟨h1, h2, h3, h4, h5⟩ := decode_sizes h
  refine ⟨h1, h2, h3, h4, fun hm hz => h5 ?_⟩
  exact parseProjection_all hm hz

/-- Successful decoding exists: the example of `C24_round_trip`. -/
example (hC : C.Lawful) (hB : C.Bounded) : ∃ data limits, decode C [[]] data 4 20 = some (some (limits, sampleRecords.flatten)) := by
  obtain ⟨_, data, _, _, _, _, h3, h4⟩ := C24_round_trip hC (t := kZstd) (by decide) 20 plainOrder sampleRecords (by decide)
  obtain ⟨limits, values, e1, e2, e3, e4⟩ := h4 (Nat.lt_of_le_of_lt (h3 hB) (by decide))
  subst e3
  exact ⟨data, limits, e1⟩

/-- **C24** (hostile chunks). Whatever the bytes, the decoder only ever visits nodes within the allocated array: the
states of the machine followed by `kMaxTransition` failure nodes. -/
theorem C24_nodes_in_bounds {fields : List (List Nat)} {src : Bytes} {c : Ctx} (h : parse C fields src = some c)
    {env : Env} {d : DSt} (hv : Visits env (DSt.init c) d) : d.node < c.nodes.length + kMaxTransition :=
  (visits_bounded (parse_ok h) hv).2.2

end Riegeli.Props
