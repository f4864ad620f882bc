import Verif.TrProjParse
import Verif.TrRound
/-!
# Transposed chunks: the decoder with projection returns the projected records
-/
namespace Riegeli.Tr
open Riegeli.Proj

/-- The decoder accepts the projection: 0 occurs only at the end of a path. Paths after an empty one do not matter. -/
def Accepted (F : List (List Nat)) : Prop := ∀ f ∈ F.takeWhile (· ≠ []), GoodPath f

theorem path_congr {f g : Nat → Node} (h : ∀ i, (f i).implicit = (g i).implicit ∧ (f i).next = (g i).next) {n : Nat}
    {offs ps : List Nat} (hp : Path f n offs ps) : Path g n offs ps := by
  induction hp with
  | done hi => exact .done (by rw [← (h _).1]; exact hi)
  | implicit hi _ ih => exact .implicit (by rw [← (h _).1]; exact hi) (by rw [← (h _).2]; exact ih)
  | step hi _ ih => exact .step (by rw [← (h _).1]; exact hi) (by rw [← (h _).2]; exact ih)

theorem rec_project_length (F : List (List Nat)) {r : Rec} {k : Nat} (h : r.Wf k) : (r.project F).ser.length ≤ r.ser.length := by
  cases r with
  | msg m => exact project_length F m h.1 []
  | other b => exact Nat.le_refl _

theorem project_flatten_length (F : List (List Nat)) {k : Nat} : ∀ (rs : List Rec), (∀ r ∈ rs, r.Wf k) →
    (rs.map (fun r => (r.project F).ser)).flatten.length ≤ (rs.map Rec.ser).flatten.length
  | [], _ => Nat.le_refl _
  | r :: rs, h => by
    have h1 := rec_project_length F (h r List.mem_cons_self)
    have h2 := project_flatten_length F rs (fun x hx => h x (List.mem_cons_of_mem _ hx))
    simp only [List.map_cons, List.flatten_cons, List.length_append]
    omega

theorem inclusion_all {F : List (List Nat)} (h : [] ∈ F) (p : List Nat) : inclusion F p = .keep := by
  unfold inclusion
  rw [if_pos]
  refine List.any_eq_true.2 ⟨[], List.mem_filter.2 ⟨h, by simp⟩, by simp⟩

theorem project_all {F : List (List Nat)} (h : [] ∈ F) : ∀ (m : Msg) (p : List Nat), m.project F p = m := by
  intro m
  induction m with
  | nil => intro p; rfl
  | varint n v rest ih => intro p; simp only [Msg.project, inclusion_all h, ih]
  | fixed32 n v rest ih => intro p; simp only [Msg.project, inclusion_all h, ih]
  | fixed64 n v rest ih => intro p; simp only [Msg.project, inclusion_all h, ih]
  | bytes n v rest ih => intro p; simp only [Msg.project, inclusion_all h, ih]
  | message n body rest ih1 ih2 => intro p; simp only [Msg.project, inclusion_all h, ih1, ih2]
  | group n body rest ih1 ih2 => intro p; simp only [Msg.project, inclusion_all h, ih1, ih2]

theorem rec_project_all {F : List (List Nat)} (h : [] ∈ F) (r : Rec) : r.project F = r := by
  cases r with
  | msg m => simp only [Rec.project, project_all h]
  | other b => rfl

theorem takeWhile_split {F : List (List Nat)} (h : [] ∈ F) : ∃ G, F = F.takeWhile (· ≠ []) ++ [] :: G := by
  induction F with
  | nil => cases h
  | cons f F ih =>
    by_cases hf : f = []
    · exact ⟨F, by simp [hf]⟩
    · have : [] ∈ F := by
        rcases List.mem_cons.1 h with h | h
        · exact absurd h.symm hf
        · exact h
      obtain ⟨G, hG⟩ := ih this
      refine ⟨G, ?_⟩
      rw [List.takeWhile_cons, if_pos (by simpa using hf), List.cons_append, ← hG]

theorem takeWhile_all {F : List (List Nat)} (h : [] ∉ F) : F.takeWhile (· ≠ []) = F := by
  induction F with
  | nil => rfl
  | cons f F ih =>
    rw [List.takeWhile_cons, if_pos (by simp; intro hf; exact h (by simp [hf])), ih (fun hh => h (List.mem_cons_of_mem _ hh))]

theorem incOf_leaf {F : List (List Nat)} {P : Nat → List Nat} {op : NodeId × Nat} (hi : incOf F P op = .yes)
    (hk : kindOf op = .leaf) : keepsData F P op.1 := by
  unfold incOf at hi
  rw [hk] at hi
  simp only at hi
  right
  cases h : inclusion F (P op.1.parent ++ [fieldNumber op.1.tag]) with
  | keep => rfl
  | clear => rw [h] at hi; cases hi
  | remove => rw [h] at hi; cases hi

theorem incOf_start {F : List (List Nat)} {P : Nat → List Nat} {op : NodeId × Nat}
    (hk : kindOf op = .subStart ∨ kindOf op = .groupStart) : incOf F P op ≠ .existence := by
  unfold incOf
  rcases hk with hk | hk <;> rw [hk] <;> simp only <;> split <;> simp

/-- A chunk written by the encoder is decoded to the projected records. -/
theorem decode_fields {C : Codec} (hC : C.Lawful) {t : UInt8} (ht : knownCompression t = true) (bucketSize : Nat)
    (O : HashOrder) {F : List (List Nat)} (hF : ∀ f ∈ F, f ≠ [] ∧ GoodPath f) (rs : List Rec)
    (hwf : ∀ r ∈ rs, r.Wf kMaxRecursionDepth)
    (hsz : (rs.map Rec.ser).flatten.length + (rs.map Rec.ser).length < 2 ^ 29) {s0 : ESt} {data : Bytes}
    (hadd0 : ESt.empty.addAll (rs.map Rec.ser) = some s0) (henc0 : s0.encode C t bucketSize O = some data)
    (hdl : data.length < 2 ^ 64) :
    decode C F data (rs.map Rec.ser).length (rs.map Rec.ser).flatten.length =
      some (some (limitsFrom 0 (rs.map (fun r => (r.project F).ser)), (rs.map (fun r => (r.project F).ser)).flatten)) := by
  obtain ⟨m, hm1, hm2⟩ := parseProjection_answers F hF
  have hr : ∀ r ∈ rs.map Rec.ser, r.length < 2 ^ 32 := by
    intro r hr
    have := length_le_flatten hr
    omega
  have hpl : (rs.map (fun r => (r.project F).ser)).flatten.length ≤ (rs.map Rec.ser).flatten.length :=
    project_flatten_length F rs hwf
  have hll : (rs.map (fun r => (r.project F).ser)).length = (rs.map Rec.ser).length := by simp
  have hrw : ∀ r ∈ rs, r.Wf kMaxRecursionDepth ∧ r.ser.length < 2 ^ 32 :=
    fun r hm => ⟨hwf r hm, hr _ (List.mem_map.2 ⟨r, hm, rfl⟩)⟩
  obtain ⟨hok, -, -, new, henc, hrun⟩ := addAll_proj hm2 (fun f hf => (hF f hf).1) rs hrw
    (by intro i x hx; simp [ESt.empty] at hx) hadd0
  generalize hqs : rs.map (fun r => (r.project F).ser) = qs at hpl hll hrun ⊢
  generalize rs.map Rec.ser = bs at hsz hadd0 hr hpl hll hrun ⊢
  obtain ⟨s, h1, hg, -⟩ := addAll_spec bs good_empty (by show 0 + _ ≤ kMaxNumRecords; unfold kMaxNumRecords; omega)
    (by show 0 + _ < _; omega) hr
  obtain rfl : s0 = s := by rw [h1] at hadd0; cases hadd0; rfl
  have hsmall := Small.addAll bs small_empty (by omega) h1
  rw [Nat.zero_add, Nat.zero_add] at hsmall
  have hlen : s0.enc.length ≤ 2 ^ 29 - 1 := by have := hsmall.enc; omega
  obtain ⟨T, sm, first, offs, ps, hD⟩ := drive O hg hlen
  have hcount : (bufValues s0).length < 2 ^ 32 := by
    have := bufValues_length_le s0
    have := hsmall.count
    omega
  have hbytes : (bufValues s0).flatten.length < 2 ^ 64 := by
    have := bufValues_bytes s0
    have := hsmall.bufs
    have := hsmall.lens
    omega
  obtain ⟨hd1, d1, hw, -, hread⟩ := parseBuffers_write hC ht (if t = kNone then 2 ^ 64 - 1 else bucketSize) hg hcount hbytes
  have hkl := bufferKeys_le s0
  have hk : (bufferKeys s0).length < 2 ^ 32 := by omega
  have hssz : 2 * sm.size ≤ 2 ^ 32 := by have := hD.size; omega
  have hsok : ∀ (e : Nat) op, s0.tags[e]? = some op → SOk (bufferKeys s0) (some op) := by
    intro e op h
    have hm := List.mem_of_getElem? h
    exact ⟨hg.wf op hm, fun id hid => mem_bufferKeys (hg.buf op hm id hid)⟩
  have hops : ∀ x ∈ smOps s0 sm, SOk (bufferKeys s0) x := by
    intro x hx
    obtain ⟨st, hst, rfl⟩ := List.mem_map.1 hx
    unfold stateNode
    cases he : st.etag with
    | none => trivial
    | some e =>
      simp only [Option.bind_some]
      cases ho : s0.tags[e]? with
      | none => trivial
      | some op => exact hsok e op ho
  have hhdr := statesHeader_length (T := T) hops hk hssz hD.lt hD.base
  have hws : writeStates s0 T sm = some (statesHeader s0 T sm first) := writeStates_eq hops hD.position (by omega)
  obtain ⟨T0, hcreate, hT0⟩ := hD.create
  have hdata : data = [t] ++ encodeLengthPrefixed C t (hd1 ++ statesHeader s0 T sm first) ++ d1 ++
      encodeCompressed C t (packOffsets none offs) := by
    unfold ESt.encode at henc0
    simp only [hcreate, hT0, hw, hws, hD.trans] at henc0
    cases henc0
    rfl
  subst hdata
  -- parsing
  have htl : (packOffsets none offs).length < 2 ^ 64 := by
    have := packOffsets_length offs none
    have := hD.count
    omega
  simp only [List.length_append, List.length_singleton] at hdl
  have hh1 := (hread (by omega)).1
  have hhl : (hd1 ++ statesHeader s0 T sm first).length < 2 ^ 64 := by
    rw [List.length_append]
    have := hD.size
    omega
  rw [encodeLengthPrefixed_eq hhl, List.length_append] at hdl
  let lb : Option Nat := if (nodesOf s0 T sm).any (fun n => n.cb == .nonProto) then some (((bufValues s0).map some).length - 1) else none
  let c : Ctx := ⟨(nodesOf s0 T sm).map sel, (bufValues s0).map some, lb, first, some m, (packOffsets none offs, true)⟩
  have hparse : parse C F ([t] ++ encodeLengthPrefixed C t (hd1 ++ statesHeader s0 T sm first) ++ d1 ++
      encodeCompressed C t (packOffsets none offs)) = some c := by
    unfold parse
    rw [hm1, encodeLengthPrefixed_eq hhl]
    simp only [List.cons_append, List.append_assoc, List.nil_append]
    rw [readVarint_write (by omega) (by omega)]
    simp only
    rw [if_neg (by simp only [List.length_append]; omega), List.take_left' rfl, List.drop_left' rfl, decompressor_encode hC ht hhl]
    simp only [Option.isSome_some, if_true]
    rw [parseBuffersF_write hC ht _ hg hcount hbytes hw (by omega)]
    simp only
    rw [parseStates_proj (by
        intro b hb
        obtain ⟨x, _, rfl⟩ := List.mem_map.1 hb
        simp) (parseStates_write hops hk (by simpa using hkl) hssz hD.lt hD.base hD.loop)]
    simp only
    rw [decompressor_encode hC ht htl]
  unfold decode
  rw [hparse]
  simp only [c]
  have hat : ∀ p ∈ ps, nodeAt ((nodesOf s0 T sm).map sel) p = sel (nodeFor s0 T sm (sm.get p)) := by
    intro p hp
    rw [nodeAt_sel, nodesOf_at s0 T sm (hD.inside p hp)]
  have hlens : ∀ p, p < sm.size → ∀ op, stateNode s0.tags (sm.get p) = some op → op.1.tag = 0 → op.1.parent = kNonProto →
      (nodesOf s0 T sm).any (fun n => n.cb == .nonProto) = true := by
    intro p hp op ho h1 h2
    refine List.any_eq_true.2 ⟨nodeFor s0 T sm (sm.get p), List.mem_map.2 ⟨_, List.mem_map.2 ⟨p, List.mem_range.2 hp, rfl⟩, rfl⟩, ?_⟩
    obtain ⟨id, sub⟩ := op
    simp only at h1 h2
    simp [nodeFor, ho, nodeOf, h1, h2]
  have hselF : ∀ i, (nodeAt (nodesOf s0 T sm) i).implicit = (nodeAt ((nodesOf s0 T sm).map sel) i).implicit ∧
      (nodeAt (nodesOf s0 T sm) i).next = (nodeAt ((nodesOf s0 T sm).map sel) i).next := by
    intro i
    rw [nodeAt_sel]
    exact ⟨(sel_fields _).1.symm, (sel_fields _).2.symm⟩
  obtain ⟨d', hloop, hrel⟩ := decodeLoop_proj (keys := bufferKeys s0) (m := m) (inc := incOf F (pathOf s0.nodes))
    (keep := keepsData F (pathOf s0.nodes))
    (env := ⟨bs.length, bs.flatten.length, lb, (some m).getD []⟩)
    (opAt := fun p => stateNode s0.tags (sm.get p)) rfl (path_congr hselF hD.path)
    (by
      intro p hp
      rw [hat p hp]
      unfold nodeFor
      exact ⟨_, _, sel_with _ _ _⟩)
    (by
      intro p hp op ho
      have hpl := hD.inside p hp
      have hso : SOk (bufferKeys s0) (some op) := hops _ (List.mem_map.2 ⟨sm.get p, List.mem_map.2 ⟨p, List.mem_range.2 hpl, rfl⟩, ho⟩)
      refine ⟨hso.1, hso.2, ?_, fun h => Or.inl h, incOf_leaf, incOf_start⟩
      intro h1 h2
      simp only [lb, hlens p hpl op ho h1 h2, if_true]
      simp)
    (d := DSt.init c) (a := ⟨projData F (pathOf s0.nodes) s0, s0.lens, [], [], [], 0⟩)
    (a' := ⟨projData F (pathOf s0.nodes) ESt.empty, ESt.empty.lens, qs.flatten ++ [],
      Added.limitsBack ([] : Bytes).length qs ++ [], [], 0⟩)
    rfl
    (by
      intro hi
      show 1 ≤ if (nodeAt ((nodesOf s0 T sm).map sel) first).implicit then 1 else 0
      rw [if_pos hi]
      omega)
    (by
      have : pending (nodeAt ((nodesOf s0 T sm).map sel)) (DSt.init c) = expand (packOffsets none offs) := by
        unfold pending
        show List.replicate ((if (nodeAt ((nodesOf s0 T sm).map sel) first).implicit then 1 else 0) -
          (if (nodeAt ((nodesOf s0 T sm).map sel) first).implicit then 1 else 0)) 0 ++ expand (packOffsets none offs) = _
        rw [Nat.sub_self]; rfl
      rw [this]
      exact (expand_packOffsets offs hD.le).1)
    (by
      have hbv : ∀ id ∈ bufferKeys s0, (((bufValues s0).map some)[(bufferKeys s0).idxOf id]?).bind (fun x => x) = some (absData s0 id) := by
        intro id hid
        rw [List.getElem?_map, bufValues_key hg hid]; rfl
      refine ⟨fun p => Or.inl rfl, ?_, ?_, ?_, rfl, rfl, rfl, rfl, by intro x hx; cases hx⟩
      · intro id hid
        show (((bufValues s0).map some)[(bufferKeys s0).idxOf id]?).bind (fun x => x) ≠ none
        rw [hbv id hid]; simp
      · intro id hid hkeep
        show (((bufValues s0).map some)[(bufferKeys s0).idxOf id]?).bind (fun x => x) = some (projData F (pathOf s0.nodes) s0 id)
        rw [hbv id hid]
        unfold projData
        rw [if_pos hkeep]
      · intro i hi
        simp only [lb] at hi
        split at hi
        · rename_i hany
          cases hi
          obtain ⟨n, hn, hcb⟩ := List.any_eq_true.1 hany
          obtain ⟨st, hst, rfl⟩ := List.mem_map.1 hn
          have hcb' : (nodeOf (bufferKeys s0) (stateNode s0.tags st)).cb = .nonProto := by simpa [nodeFor] using hcb
          obtain ⟨id, sub, k1, k2, k3⟩ := nodeOf_nonProto hcb'
          have hm : (id, sub) ∈ s0.tags := by
            unfold stateNode at k1
            cases he : st.etag with
            | none => rw [he] at k1; cases k1
            | some e => rw [he] at k1; exact List.mem_of_getElem? k1
          have hwf := hg.wf _ hm
          have hl : s0.lens ≠ [] := by
            apply hg.lens
            rcases hwf with ⟨_, _, hsub⟩ | ⟨h8, _⟩
            · obtain ⟨par, tag⟩ := id
              simp only at k2 k3 hsub
              subst k2 k3 hsub
              exact hm
            · simp only at h8; omega
          obtain ⟨l1, l2⟩ := bufValues_lens hl
          rw [List.length_map, l1]
          refine ⟨by omega, ?_⟩
          show (((bufValues s0).map some)[(bufferKeys s0).length + 1 - 1]?).bind (fun x => x) = _
          rw [Nat.add_sub_cancel, List.getElem?_map, l2]; rfl
        · cases hi)
    (by
      have e : ps.filterMap (fun p => stateNode s0.tags (sm.get p)) = s0.enc.filterMap (s0.tags[·]?) := by
        rw [← hD.tags, List.filterMap_filterMap]
        rfl
      rw [e]
      have henc' : s0.enc = new := by rw [henc]; simp [ESt.empty]
      rw [henc']
      exact hrun s0.tags (pathOf s0.nodes) (List.prefix_refl _) (pathOf_paths hok) [] [])
    (by simpa using hpl)
    (by simp [limitsBack_length, hll])
  rw [hloop]
  simp only
  have hst : d'.stack = [] := by
    have := hrel.stack
    simp only at this
    exact List.map_eq_nil_iff.1 this.symm
  have hdest : d'.dest = qs.flatten := by rw [hrel.dest]; simp
  have hlim : d'.limits = Added.limitsBack 0 qs := by rw [hrel.limits]; simp
  have hfin : ∀ env : Env, env.numRecords = bs.length → finish env true d' = some (limitsFrom 0 qs) := by
    intro env he
    unfold finish
    rw [if_neg (by simp), if_neg (by simp [hst]), if_neg (by simp [hrel.skipped]), hlim, he,
      if_neg (by simp [limitsBack_length, hll])]
    simp only [limitsBack_headD, hdest]
    rw [if_neg (by simp), reverseLimits_back]
  rw [hfin _ rfl]
  simp [hdest]

/-- A chunk written by the encoder is decoded to the projected records, whatever the projection. -/
theorem decode_project {C : Codec} (hC : C.Lawful) {t : UInt8} (ht : knownCompression t = true) (bucketSize : Nat)
    (O : HashOrder) (rs : List Rec) (hwf : ∀ r ∈ rs, r.Wf kMaxRecursionDepth)
    (hsz : (rs.map Rec.ser).flatten.length + (rs.map Rec.ser).length < 2 ^ 29) {s : ESt} {data : Bytes}
    (hadd : ESt.empty.addAll (rs.map Rec.ser) = some s) (henc : s.encode C t bucketSize O = some data)
    (hdl : data.length < 2 ^ 64) (F : List (List Nat)) :
    (Accepted F → decode C F data (rs.map Rec.ser).length (rs.map Rec.ser).flatten.length =
      some (some (limitsFrom 0 (rs.map (fun r => (r.project F).ser)), (rs.map (fun r => (r.project F).ser)).flatten))) ∧
    (¬ Accepted F → decode C F data (rs.map Rec.ser).length (rs.map Rec.ser).flatten.length = some none) := by
  by_cases hall : [] ∈ F
  · obtain ⟨G, hG⟩ := takeWhile_split hall
    constructor
    · intro hacc
      have hpp : parseProjection [] F = some none := by
        rw [hG]; exact parseProjection_all _ G [] hacc
      obtain ⟨s', data', e1, -, -, e2, -, e3⟩ := decode_encode hC ht bucketSize O (rs.map Rec.ser) hsz
      rw [hadd] at e1
      cases e1
      rw [henc] at e2
      cases e2
      have hp : parse C F data = parse C [[]] data := by
        unfold parse
        rw [hpp]; rfl
      have hd : ∀ a b, decode C F data a b = decode C [[]] data a b := by
        intro a b
        unfold decode
        rw [hp]
      rw [hd, e3 hdl]
      have : rs.map (fun r => (r.project F).ser) = rs.map Rec.ser := by
        apply List.map_congr_left
        intro r _
        rw [rec_project_all hall]
      rw [this]
    · intro hacc
      have hpp : parseProjection [] F = none := by
        have : ∃ f ∈ F.takeWhile (· ≠ []), ¬ GoodPath f := by
          apply Classical.byContradiction
          intro hh
          apply hacc
          intro f hf
          apply Classical.byContradiction
          intro hb
          exact hh ⟨f, hf, hb⟩
        rw [hG]
        have hnil : [] ∉ F.takeWhile (· ≠ []) := by
          intro hh
          have := List.all_takeWhile (l := F) (p := (· ≠ []))
          rw [List.all_eq_true] at this
          simpa using this [] hh
        exact parseProjection_bad_append _ ([] :: G) [] hnil this
      unfold decode parse
      rw [hpp]
  · have htw := takeWhile_all hall
    constructor
    · intro hacc
      unfold Accepted at hacc
      rw [htw] at hacc
      exact decode_fields hC ht bucketSize O (fun f hf => ⟨fun hh => hall (hh ▸ hf), hacc f hf⟩) rs hwf hsz hadd henc hdl
    · intro hacc
      unfold Accepted at hacc
      rw [htw] at hacc
      have hpp : parseProjection [] F = none := by
        apply parseProjection_bad _ _ hall
        apply Classical.byContradiction
        intro hh
        apply hacc
        intro f hf
        apply Classical.byContradiction
        intro hb
        exact hh ⟨f, hf, hb⟩
      unfold decode parse
      rw [hpp]

end Riegeli.Tr
