import Verif.Props.Writing
/-!
# C08: positions of records
-/
namespace Riegeli.Props
open Riegeli Riegeli.CR

/-- The order of `RecordPosition` (`record_position.h`): by `chunk_begin`, then by `record_index`. -/
def posLt (p q : RecordPosition) : Prop :=
  p.chunkBegin < q.chunkBegin ∨ (p.chunkBegin = q.chunkBegin ∧ p.recordIndex < q.recordIndex)

variable {H : Bytes → UInt64} {parse : Chunk → Option (List Nat × Bytes)} {recs : Chunk → List Bytes}

theorem positions_aux : ∀ (cs : List Chunk) (pos : Nat), BoundaryOk pos → ChunksOk H pos cs →
    (∀ c ∈ cs, (recs c).length = Hdr.numRecords c.header) → pos < 2 ^ 64 →
    (∀ p ∈ recordPositions recs pos cs, p.numeric = p.chunkBegin + p.recordIndex ∧ pos ≤ p.numeric ∧
      p.numeric < fileEnd pos cs ∧ pos ≤ p.chunkBegin) ∧
    (recordPositions recs pos cs).Pairwise (fun p q => p.numeric < q.numeric ∧ posLt p q)
  | [], pos, _, _, _, _ => by simp [recordPositions]
  | c :: cs, pos, hb, h, hn, hlt => by
    obtain ⟨_, h2, h3⟩ := h
    have hs := endAt_spec hb h2
    have hgt := hs.1.gt
    obtain ⟨e1, e2, e3, e4⟩ := hs.1
    have hfe := (h3.laid.boundary e1).2
    have hlt2 : c.endAt pos < 2 ^ 64 := hs.2
    obtain ⟨i1, i2⟩ := positions_aux cs (c.endAt pos) e1 h3 (fun c hc => hn c (List.mem_cons_of_mem _ hc)) hlt2
    have hnum := hn c (List.mem_cons_self ..)
    have hfirst : ∀ p ∈ (List.range (recs c).length).map (fun i => (⟨pos, i⟩ : RecordPosition)),
        p.chunkBegin = pos ∧ p.recordIndex < (recs c).length ∧ p.numeric = pos + p.recordIndex := by
      intro p hp
      simp only [List.mem_map, List.mem_range] at hp
      obtain ⟨i, hi, rfl⟩ := hp
      refine ⟨rfl, hi, ?_⟩
      unfold RecordPosition.numeric w64
      simp only
      exact Nat.mod_eq_of_lt (by omega)
    simp only [recordPositions, fileEnd]
    constructor
    · intro p hp
      rcases List.mem_append.1 hp with hp | hp
      · obtain ⟨f1, f2, f3⟩ := hfirst p hp
        refine ⟨by omega, by omega, by omega, by omega⟩
      · obtain ⟨f1, f2, f3, f4⟩ := i1 p hp
        exact ⟨f1, by omega, f3, by omega⟩
    · rw [List.pairwise_append]
      refine ⟨?_, i2, ?_⟩
      · rw [List.pairwise_map]
        refine List.Pairwise.imp_of_mem ?_ List.pairwise_lt_range
        intro a b ha hb' hab
        have fa := hfirst ⟨pos, a⟩ (List.mem_map.2 ⟨a, ha, rfl⟩)
        have fb := hfirst ⟨pos, b⟩ (List.mem_map.2 ⟨b, hb', rfl⟩)
        refine ⟨?_, Or.inr ⟨rfl, hab⟩⟩
        rw [fa.2.2, fb.2.2]; simp only; omega
      · intro p hp q hq
        obtain ⟨f1, f2, f3⟩ := hfirst p hp
        obtain ⟨g1, g2, g3, g4⟩ := i1 q hq
        exact ⟨by omega, Or.inl (by omega)⟩

/-- **C08** for any valid file: the positions of its records are strictly increasing, both as `RecordPosition` and as
integers; `numeric()` does not wrap around and is within the file. -/
theorem C08_positions_increase {cs : List Chunk} {F : Bytes} (hv : ValidFile H cs F)
    (hdec : ∀ c ∈ cs, DecodesTo parse c (recs c)) :
    (recordPositions recs 0 cs).Pairwise (fun p q => p.numeric < q.numeric ∧ posLt p q) ∧
    ∀ p ∈ recordPositions recs 0 cs, p.numeric = p.chunkBegin + p.recordIndex ∧ p.numeric < F.length := by
  obtain ⟨h1, h2⟩ := positions_aux (H := H) (recs := recs) cs 0 boundaryOk_zero hv.ok
    (fun c hc => (hdec c hc).2) (by omega)
  have hlen : F.length = fileEnd 0 cs := by rw [hv.bytes, hv.ok.laid.length boundaryOk_zero]; omega
  exact ⟨h2, fun p hp => ⟨(h1 p hp).1, by rw [hlen]; exact (h1 p hp).2.2.1⟩⟩

variable {σ : Type} {E : Encoder σ} {o : WOpts} {C : Codec}
  {tdec : Bytes → Nat → Nat → Option (List Nat × Bytes)} {recovery : Option (CR.Region → Bool)}

/-- **C08** for files written by `RecordWriter`: the positions `ps` which a reader reports for the records written are
strictly increasing, as positions and as integers, hence all different, and lie within the file. -/
theorem C08_written_positions_increase (hE : E.Correct H (parseChunk C tdec)) {ops : List WOp} {w0 w1 w2 : RW σ}
    {log : List (Option RecordPosition)} (hi : RW.init E H o [] = some w0)
    (hr : RW.run E H o ops w0 = some (log, w1)) (hc : w1.close E H o = some w2)
    {hdr0 bh0 : Bytes} (h40 : hdr0.length = 40) (h24 : bh0.length = 24) :
    ∃ ps s, ps.length = (WOp.records ops).length ∧
      readSchedule H (parseChunk C tdec) recovery
        (List.replicate ((WOp.records ops).length + 1) w2.out) (newReader hdr0 bh0) =
      some (((WOp.records ops).zip ps).map some ++ [none], s) ∧
      ps.Pairwise (fun p q => p.numeric < q.numeric ∧ posLt p q) ∧
      ∀ p ∈ ps, p.numeric = p.chunkBegin + p.recordIndex ∧ p.numeric < w2.out.length := by
  obtain ⟨cs0, a1, a2⟩ := init_empty_spec metadata_decodes signature_decodes hi
  obtain ⟨cs1, op1, b1, b2, b3, b4, b5, b6, b7⟩ := run_spec hE paddingChunk_decodes ops a1 hr
  obtain ⟨cs2, c1, c2, c3, c4, _⟩ := finishChunk_spec hE paddingChunk_decodes b1.inv hc
  rw [a2, List.nil_append, List.nil_append] at b3
  rw [b3] at c3
  obtain ⟨s, d1, _⟩ := read_out (recovery := recovery) c1.out h40 h24 0
  rw [c3] at d1
  have hp : allPos (parseChunk C tdec) cs2 [] = recordPositions (recordsOf (parseChunk C tdec)) 0 cs2 := by
    simp [allPos]
  obtain ⟨e1, e2⟩ := C08_positions_increase (c1.out.valid) c1.out.dec
  refine ⟨allPos (parseChunk C tdec) cs2 [], s, ?_, d1, by rw [hp]; exact e1, by rw [hp]; exact e2⟩
  rw [allPos_length, c3, List.append_nil]

end Riegeli.Props
