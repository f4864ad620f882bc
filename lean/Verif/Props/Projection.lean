import Verif.TrProjRound
import Verif.Props.Transpose
/-!
# C25: field projection

`Riegeli.Proj` (`ProjSpec.lean`) is the specification: messages as trees of fields with their wire encoding `Msg.ser`, and
`Rec.project`, which removes the fields which the projection does not include and clears those which are included for
existence only. `Tr.ESt.addAll` and `Tr.ESt.encode` are the transposing encoder, `Tr.decode C fields` is the decoder with
a field projection. A projection is a list of paths of field numbers; an empty path includes everything, and 0
(`Field::kExistenceOnly`) as the last element of a path asks for existence only.
-/
namespace Riegeli.Props
open Riegeli Riegeli.Tr Riegeli.Proj

variable {C : Codec} {H : Bytes → UInt64} {o : WOpts} {recovery : Option (CR.Region → Bool)}

/-- Which projections are accepted: `kExistenceOnly` may only be the last element of a path. Paths after an empty one are
not looked at. -/
def ProjectionOk (fields : List (List Nat)) : Prop := ∀ path ∈ fields.takeWhile (· ≠ []), 0 ∉ path.dropLast

theorem projectionOk_iff {fields : List (List Nat)} : ProjectionOk fields ↔ Accepted fields := Iff.rfl

instance (fields : List (List Nat)) : Decidable (ProjectionOk fields) := by unfold ProjectionOk; infer_instance

/-- **C25.** For any records (messages of any shape and nesting, and bytes which are not a message) of total size below
`2^29`, any lawful compression, bucket size and iteration order of hash maps: the encoder succeeds, and decoding what it
made with any accepted projection returns exactly the records with the fields which are not included removed. With
a projection which is not accepted the decoder fails. -/
theorem C25_projection (hC : C.Lawful) {t : UInt8} (ht : knownCompression t = true) (bucketSize : Nat) (O : HashOrder)
    (rs : List Rec) (hwf : ∀ r ∈ rs, r.Wf kMaxRecursionDepth)
    (hsz : (rs.map Rec.ser).flatten.length + rs.length < 2 ^ 29) :
    ∃ s data, ESt.empty.addAll (rs.map Rec.ser) = some s ∧ s.encode C t bucketSize O = some data ∧
      (C.Bounded → data.length ≤ 10000 * ((rs.map Rec.ser).flatten.length + rs.length + 1)) ∧
      (data.length < 2 ^ 64 → ∀ fields,
        (ProjectionOk fields → ∃ limits values,
          decode C fields data rs.length (rs.map Rec.ser).flatten.length = some (some (limits, values)) ∧
          splitLimits 0 limits values = rs.map (fun r => (r.project fields).ser)) ∧
        (¬ ProjectionOk fields → decode C fields data rs.length (rs.map Rec.ser).flatten.length = some none)) := by
  have hsz' : (rs.map Rec.ser).flatten.length + (rs.map Rec.ser).length < 2 ^ 29 := by
    rw [List.length_map]; exact hsz
  obtain ⟨s, data, h1, _, _, h4, h5, _⟩ := decode_encode hC ht bucketSize O (rs.map Rec.ser) hsz'
  rw [List.length_map] at h5
  refine ⟨s, data, h1, h4, h5, fun hdl fields => ?_⟩
  obtain ⟨k1, k2⟩ := decode_project hC ht bucketSize O rs hwf hsz' h1 h4 hdl fields
  rw [List.length_map] at k1 k2
  refine ⟨fun ha => ⟨_, _, k1 ha, splitLimits_limitsFrom _ 0⟩, k2⟩

/-- Any bytes are a record of one of the shapes of the theorem above, so that it is about any records. -/
theorem C25_any_record (b : Bytes) : ∃ r : Rec, r.Wf kMaxRecursionDepth ∧ r.ser = b := rec_exists b

theorem C25_any_records : ∀ bs : List Bytes, ∃ rs : List Rec, (∀ r ∈ rs, r.Wf kMaxRecursionDepth) ∧ rs.map Rec.ser = bs
  | [] => ⟨[], by simp, rfl⟩
  | b :: bs => by
    obtain ⟨rs, h1, h2⟩ := C25_any_records bs
    obtain ⟨r, h3, h4⟩ := rec_exists b
    exact ⟨r :: rs, by simpa using ⟨h3, h1⟩, by simp [h2, h4]⟩

/-- **C25** (what is a subset). A projected record is never longer than the record. -/
theorem C25_never_longer (fields : List (List Nat)) (r : Rec) (h : r.Wf kMaxRecursionDepth) :
    (r.project fields).ser.length ≤ r.ser.length := rec_project_length fields h

/-- **C25.** If everything is included, nothing is removed. -/
theorem C25_all_included {fields : List (List Nat)} (h : [] ∈ fields) (r : Rec) : r.project fields = r :=
  rec_project_all h r

/-! A concrete instance: a message with a number, a submessage which has two numbers and a string, a group with a fixed
number and a string; and bytes which are not a message. -/

/-- `1: 5, 2: {1: 7, 2: 300, 3: "ÿ"}, 4 (group): {1: fixed32}, 3: ""` -/
def sampleMsg : Msg :=
  .varint 1 5 (.message 2 (.varint 1 7 (.varint 2 300 (.bytes 3 [255] .nil)))
    (.group 4 (.fixed32 1 [1, 2, 3, 4] .nil) (.bytes 3 [] .nil)))

def sampleRecs : List Rec := [.msg sampleMsg, .other [255]]

/-- The submessage except its first number, with only the existence of the string; everything in the group; existence of
the top-level number. -/
def sampleFields : List (List Nat) := [[2, 2], [2, 3, 0], [4], [1, 0]]

theorem sampleRecs_wf : ∀ r ∈ sampleRecs, r.Wf kMaxRecursionDepth := by
  intro r hr
  simp only [sampleRecs, List.mem_cons, List.not_mem_nil, or_false] at hr
  have h255 : ¬ IsMessage [255] := by rw [← isProtoMessage_iff]; decide +kernel
  rcases hr with rfl | rfl
  · simp [Rec.Wf, sampleMsg, Msg.Valid, Msg.Split, h255, kMaxRecursionDepth]
    decide +kernel
  · exact h255

example : ProjectionOk sampleFields ∧ sampleMsg.project sampleFields [] =
    .varint 1 0 (.message 2 (.varint 2 300 (.bytes 3 [] .nil)) (.group 4 (.fixed32 1 [1, 2, 3, 4] .nil) .nil)) := by
  decide +kernel

example (hC : C.Lawful) (hB : C.Bounded) : ∃ s data, ESt.empty.addAll (sampleRecs.map Rec.ser) = some s ∧
    s.encode C kZstd 20 plainOrder = some data ∧ ∃ limits values,
      decode C sampleFields data 2 22 = some (some (limits, values)) ∧
      splitLimits 0 limits values = [[8, 0, 18, 5, 16, 172, 2, 26, 0, 35, 13, 1, 2, 3, 4, 36], [255]] := by
  obtain ⟨s, data, h1, h2, h3, h4⟩ := C25_projection hC (t := kZstd) (by decide) 20 plainOrder sampleRecs sampleRecs_wf
    (by decide +kernel)
  have hl : data.length < 2 ^ 64 := Nat.lt_of_le_of_lt (h3 hB) (by decide +kernel)
  obtain ⟨limits, values, e1, e2⟩ := (h4 hl sampleFields).1 (by decide)
  refine ⟨s, data, h1, h2, limits, values, ?_, ?_⟩
  · rw [← e1, show (sampleRecs.map Rec.ser).flatten.length = 22 by decide +kernel]; rfl
  · rw [e2]; decide +kernel

/-! ## Files -/

/-- The projected bytes of a record, whichever description of it is taken. -/
noncomputable def projectBytes (fields : List (List Nat)) (b : Bytes) : Bytes := ((rec_exists b).choose.project fields).ser

theorem projectBytes_eq {fields : List (List Nat)} (hf : ProjectionOk fields) {r : Rec} (h : r.Wf kMaxRecursionDepth)
    (hsz : r.ser.length + 1 < 2 ^ 29) : projectBytes fields r.ser = (r.project fields).ser := by
  obtain ⟨h1, h2⟩ := (rec_exists r.ser).choose_spec
  unfold projectBytes
  generalize (rec_exists r.ser).choose = r' at *
  have hC : storeCodec.Lawful := fun _ _ _ => rfl
  have hB : storeCodec.Bounded := fun _ d => by simp only [storeCodec]; omega
  have hsz1 : ([r].map Rec.ser).flatten.length + ([r].map Rec.ser).length < 2 ^ 29 := by simpa using hsz
  have e : [r'].map Rec.ser = [r].map Rec.ser := by simp [h2]
  obtain ⟨s, data, a1, _, _, a4, a5, _⟩ := decode_encode hC (t := kZstd) (by decide) 20 plainOrder ([r].map Rec.ser) hsz1
  have hdl : data.length < 2 ^ 64 := by have := a5 hB; omega
  have k1 := (decode_project hC (t := kZstd) (by decide) 20 plainOrder [r] (by simpa using h) hsz1 a1 a4 hdl fields).1 hf
  have k2 := (decode_project hC (t := kZstd) (by decide) 20 plainOrder [r'] (by simpa using h1) (e ▸ hsz1)
    (by rw [e]; exact a1) a4 hdl fields).1 hf
  rw [e, k1] at k2
  simp only [Option.some.injEq, Prod.mk.injEq] at k2
  simpa using k2.2.symm

/-- `ChunkDecoder::Parse` with a field projection (`chunk_decoder.cc:75-190`): it is given to `TransposeDecoder`; chunks
of other types ignore it. -/
def parseProjected (C : Codec) (fields : List (List Nat)) : Chunk → Option (List Nat × Bytes) :=
  parseChunk C (fun data n size => (decode C fields data n size).bind id)

open Classical in
/-- Chunks which decode to projected records. -/
noncomputable def projectable (C : Codec) (fields : List (List Nat)) (c : Chunk) : Option (List Nat × Bytes) :=
  if DecodesTo (parseProjected C fields) c ((recordsOf (parseChunk C (tdecode C)) c).map (projectBytes fields)) then
    parseChunk C (tdecode C) c
  else none

theorem projectable_decodes {fields : List (List Nat)} {c : Chunk} {rs : List Bytes}
    (h : DecodesTo (parseChunk C (tdecode C)) c rs) (h' : DecodesTo (parseProjected C fields) c (rs.map (projectBytes fields))) :
    DecodesTo (projectable C fields) c rs := by
  refine ⟨?_, h.2⟩
  unfold projectable
  rw [recordsOf_eq h, if_pos h', h.1]

theorem decodes_projectable {fields : List (List Nat)} {c : Chunk} {rs : List Bytes}
    (h : DecodesTo (projectable C fields) c rs) : DecodesTo (parseProjected C fields) c (rs.map (projectBytes fields)) := by
  obtain ⟨h1, h2⟩ := h
  unfold projectable at h1
  split at h1
  · rename_i hd
    rwa [recordsOf_eq ⟨h1, h2⟩] at hd
  · cases h1

theorem transposed_projected {fields : List (List Nat)} {rs qs : List Bytes} {data : Bytes} (hn : rs.length < 2 ^ 56)
    (hsz : rs.flatten.length < 2 ^ 64) (hq : qs.length = rs.length)
    (hd : decode C fields data rs.length rs.flatten.length = some (some (limitsFrom 0 qs, qs.flatten))) :
    DecodesTo (parseProjected C fields) (mkChunk H data kTransposed rs.length rs.flatten.length) qs := by
  refine ⟨?_, ?_⟩
  · unfold parseProjected parseChunk
    simp only [mkChunk, mkChunkHeader_chunkType H _ kTransposed _ _ hn,
      mkChunkHeader_numRecords H _ kTransposed _ _ hn, mkChunkHeader_decodedDataSize H _ kTransposed _ _ hsz]
    rw [if_neg (by decide), if_neg (by decide), if_neg (by decide), if_neg (by decide), if_pos trivial, hd]; rfl
  · simp only [mkChunk]; rw [mkChunkHeader_numRecords H _ kTransposed _ _ hn, hq]

theorem capped_projectable (hC : C.Lawful) {t : UInt8} (ht : knownCompression t = true) (bucketSize : Nat)
    (O : HashOrder) {fields : List (List Nat)} (hf : ProjectionOk fields) :
    (capped C t bucketSize O).Correct H (projectable C fields) where
  num := (capped_correct hC ht bucketSize O H).num
  finish rs s data typ dec h hf' hd := by
    have hk := (capped_correct hC ht bucketSize O H).finish rs s data typ dec h hf' hd
    have h0 := h
    rw [addAll_encoder _ rfl] at h
    obtain ⟨h1, h2, h3⟩ := addAll_counts rs h (Nat.zero_le _)
    rw [show ESt.numRecords (capped C t bucketSize O).empty = 0 from rfl, Nat.zero_add] at h1
    rw [show ESt.decodedDataSize (capped C t bucketSize O).empty = 0 from rfl, Nat.zero_add] at h2
    simp only [capped] at hf'
    split at hf'
    · rename_i hlt
      have hlt' : rs.flatten.length + rs.length < 2 ^ 29 := by omega
      rw [show (capped C t bucketSize O).empty = ESt.empty from rfl] at h
      simp only [transposeEncoder] at hf'
      cases henc : s.encode C t bucketSize O with
      | none => rw [henc] at hf'; cases hf'
      | some data' =>
      rw [henc] at hf'
      simp only [Option.map_some, Option.some.injEq, Prod.mk.injEq] at hf'
      obtain ⟨rfl, rfl, rfl⟩ := hf'
      refine projectable_decodes hk ?_
      rw [h2]
      obtain ⟨qs, hq1, hq2⟩ : ∃ qs : List Rec, (∀ q ∈ qs, q.Wf kMaxRecursionDepth) ∧ qs.map Rec.ser = rs :=
        C25_any_records rs
      subst hq2
      have hd' := (decode_project hC ht bucketSize O qs hq1 hlt' h henc hd fields).1 hf
      have e : (qs.map Rec.ser).map (projectBytes fields) = qs.map (fun r => (r.project fields).ser) := by
        rw [List.map_map]
        apply List.map_congr_left
        intro q hq
        apply projectBytes_eq hf (hq1 q hq)
        have : q.ser.length ≤ (qs.map Rec.ser).flatten.length := by
          have hm : q.ser ∈ qs.map Rec.ser := List.mem_map_of_mem hq
          obtain ⟨a, b, e⟩ := List.append_of_mem hm
          rw [e]; simp only [List.flatten_append, List.flatten_cons, List.length_append]; omega
        have : 0 < (qs.map Rec.ser).length := by
          rw [List.length_map]; exact List.length_pos_of_mem hq
        omega
      rw [e]
      exact transposed_projected (by omega) (by omega) (by simp) hd'
    · cases hf'

theorem recordPositions_congr {f g : Chunk → List Bytes} : ∀ (cs : List Chunk) (pos : Nat),
    (∀ c ∈ cs, (f c).length = (g c).length) → recordPositions f pos cs = recordPositions g pos cs
  | [], _, _ => rfl
  | c :: cs, pos, h => by
    simp only [recordPositions]
    rw [h c (List.mem_cons_self ..), recordPositions_congr cs _ (fun x hx => h x (List.mem_cons_of_mem _ hx))]

/-- **C25** (files). Whatever records are written with the transpose option, with any flushes in between, reading the file
with any accepted projection returns, in order, the projected records, with the positions at which they were written; then
end of source, without failures. -/
theorem C25_files (hC : C.Lawful) {t : UInt8} (ht : knownCompression t = true) (bucketSize : Nat) (O : HashOrder)
    (ho : o.desired < 2 ^ 29) {ops : List WOp} {rs : List Rec} (hrs : WOp.records ops = rs.map Rec.ser)
    (hwf : ∀ r ∈ rs, r.Wf kMaxRecursionDepth) (hops : ∀ r ∈ rs, r.ser.length + 8 < 2 ^ 29)
    {w0 w1 w2 : RW ESt} {log : List (Option RecordPosition)}
    (hi : RW.init (transposeEncoder C t bucketSize O) H o [] = some w0)
    (hr : RW.run (transposeEncoder C t bucketSize O) H o ops w0 = some (log, w1))
    (hc : w1.close (transposeEncoder C t bucketSize O) H o = some w2)
    {fields : List (List Nat)} (hf : ProjectionOk fields)
    {hdr0 bh0 : Bytes} (h40 : hdr0.length = 40) (h24 : bh0.length = 24) (m : Nat) :
    ∃ ps s, ps.length = rs.length ∧
      readSchedule H (parseProjected C fields) recovery
        (List.replicate (rs.length + (m + 1)) w2.out) (newReader hdr0 bh0) =
      some (((rs.map (fun r => (r.project fields).ser)).zip ps).map some ++ List.replicate (m + 1) none, s) ∧
      s.err = none ∧ s.skipped = [] ∧ s.closeErr = none ∧ log = expectedLastPos ps 0 ops := by
  have hops' : ∀ r ∈ WOp.records ops, r.length + 8 ≤ 2 ^ 29 - 1 := by
    rw [hrs]
    intro r hr
    obtain ⟨q, hq, rfl⟩ := List.mem_map.1 hr
    exact Nat.le_sub_one_of_lt (hops q hq)
  obtain ⟨hi', hs⟩ := init_capped (B := 2 ^ 29 - 1) hi
  obtain ⟨e1, e2⟩ := run_capped (C := C) (t := t) (bucketSize := bucketSize) (O := O) (H := H) (B := 2 ^ 29 - 1) (by omega)
    (Nat.le_sub_one_of_lt ho) ops hs hops'
  obtain ⟨e3, _⟩ := finishChunk_capped (C := C) (t := t) (bucketSize := bucketSize) (O := O) (H := H) (o := o) (B := 2 ^ 29 - 1) (by omega)
    (e2 _ _ hr)
  have hE := capped_projectable (H := H) hC ht bucketSize O hf
  have hpd : ∀ n, DecodesTo (projectable C fields) (paddingChunk H n) [] :=
    fun n => projectable_decodes (paddingChunk_decodes n) (paddingChunk_decodes n)
  obtain ⟨cs0, a1, a2⟩ := init_empty_spec (parse := projectable C fields)
    (fun d n => projectable_decodes (metadata_decodes d n) (metadata_decodes d n))
    (projectable_decodes signature_decodes signature_decodes) hi'
  obtain ⟨cs1, op1, b1, b2, b3, b4, b5, b6, b7⟩ := run_spec hE hpd ops a1 (e1.trans hr)
  obtain ⟨cs2, c1, c2, c3, c4, _⟩ := finishChunk_spec hE hpd b1.inv (e3.trans hc)
  rw [a2, List.nil_append, List.nil_append] at b3
  rw [b3] at c3
  have hout : OutIs H (parseProjected C fields) cs2 w2 := by
    obtain ⟨k1, k2, k3, k4, k5⟩ := c1.out
    refine ⟨k1, k2, k3, k4, fun c hc => ?_⟩
    have := decodes_projectable (k5 c hc)
    rwa [← recordsOf_eq this] at this
  have hrec : ∀ c ∈ cs2, recordsOf (parseProjected C fields) c = (recordsOf (projectable C fields) c).map (projectBytes fields) :=
    fun c hc => recordsOf_eq (decodes_projectable (c1.out.dec c hc))
  have hfm : cs2.flatMap (recordsOf (parseProjected C fields)) = rs.map (fun r => (r.project fields).ser) := by
    have h1 : cs2.flatMap (recordsOf (parseProjected C fields)) =
        (cs2.flatMap (recordsOf (projectable C fields))).map (projectBytes fields) := by
      rw [List.map_flatMap]
      rw [List.flatMap_def, List.flatMap_def, List.map_congr_left hrec]
    rw [h1, c3, hrs, List.map_map]
    apply List.map_congr_left
    intro q hq
    exact projectBytes_eq hf (hwf q hq) (by have := hops q hq; omega)
  have hap : allPos (parseProjected C fields) cs2 [] = allPos (projectable C fields) cs2 [] := by
    unfold allPos
    rw [recordPositions_congr (f := recordsOf (parseProjected C fields)) (g := recordsOf (projectable C fields)) cs2 0
      (fun c hc => by rw [hrec c hc, List.length_map])]
  obtain ⟨s, d1, d2, d3, d4⟩ := read_out (recovery := recovery) hout h40 h24 m
  rw [hfm, List.length_map] at d1
  refine ⟨allPos (parseProjected C fields) cs2 [], s, ?_, d1, d2, d3, d4, ?_⟩
  · rw [allPos_length, hfm, List.append_nil, List.length_map]
  · rw [b5, hap, c4]; rfl

end Riegeli.Props
